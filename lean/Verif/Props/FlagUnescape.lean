import Verif.Props.FlagFilter

/-!
# Property C80: taking the escape character away from flags
-/
namespace Hfst.Trans
open Hfst.Basic Graph
open Hfst.Lexc (strip Cost Good HasLabel Star Larger larger_addSymbols strip_map)

/-- A function on symbols, on both sides of a pair. -/
def onPair (f : Sym → Sym) (p : Sym × Sym) : Sym × Sym := (f p.1, f p.2)

/-- `r` is `g` with its symbols renamed. -/
structure Renamed (f : Sym → Sym) (g r : Graph) : Prop where
  good : Good r
  alphabet : ∀ x, x ∈ r.alphabet ↔ ∃ y ∈ g.alphabet, x = f y
  accepts : ∀ l w, Accepts r l w ↔ ∃ l', Accepts g l' w ∧ l = l'.map (onPair f)
  labels : ∀ p, HasLabel r p ↔ ∃ q, HasLabel g q ∧ p = onPair f q

theorem Renamed.refl {g : Graph} (hg : Good g) : Renamed id g g := by
  have : onPair id = id := rfl
  refine ⟨hg, fun x => ⟨fun h => ⟨x, h, rfl⟩, ?_⟩, fun l w => ?_, fun p => ⟨fun h => ⟨p, h, rfl⟩, ?_⟩⟩
  · rintro ⟨y, hy, rfl⟩; exact hy
  · rw [this]
    simp
  · rintro ⟨q, hq, rfl⟩; exact hq

theorem Renamed.trans {f h : Sym → Sym} {g r t : Graph} (a : Renamed f g r) (b : Renamed h r t) : Renamed (h ∘ f) g t := by
  have hc : ∀ q, onPair h (onPair f q) = onPair (h ∘ f) q := fun _ => rfl
  refine ⟨b.good, fun x => ?_, fun l w => ?_, fun p => ?_⟩
  · rw [b.alphabet]
    constructor
    · rintro ⟨y, hy, rfl⟩
      obtain ⟨z, hz, rfl⟩ := (a.alphabet y).mp hy
      exact ⟨z, hz, rfl⟩
    · rintro ⟨z, hz, rfl⟩
      exact ⟨f z, (a.alphabet _).mpr ⟨z, hz, rfl⟩, rfl⟩
  · rw [b.accepts]
    constructor
    · rintro ⟨l', h1, rfl⟩
      obtain ⟨l'', h2, rfl⟩ := (a.accepts l' w).mp h1
      exact ⟨l'', h2, by rw [List.map_map]; rfl⟩
    · rintro ⟨l'', h2, rfl⟩
      exact ⟨l''.map (onPair f), (a.accepts _ w).mpr ⟨l'', h2, rfl⟩, by rw [List.map_map]; rfl⟩
  · rw [b.labels]
    constructor
    · rintro ⟨q, h1, rfl⟩
      obtain ⟨q', h2, rfl⟩ := (a.labels q).mp h1
      exact ⟨q', h2, rfl⟩
    · rintro ⟨q', h2, rfl⟩
      exact ⟨onPair f q', (a.labels _).mpr ⟨q', h2, rfl⟩, rfl⟩

theorem Renamed.congr {f h : Sym → Sym} {g r : Graph} (a : Renamed f g r) (hg : Good g) (e : ∀ x ∈ g.alphabet, f x = h x) : Renamed h g r := by
  have hp : ∀ q, HasLabel g q → onPair f q = onPair h q := by
    intro q hq
    obtain ⟨h1, h2⟩ := label_alpha hg hq
    unfold onPair
    rw [e _ h1, e _ h2]
  refine ⟨a.good, fun x => ?_, fun l w => ?_, fun p => ?_⟩
  · rw [a.alphabet]
    constructor
    · rintro ⟨y, hy, rfl⟩; exact ⟨y, hy, e y hy⟩
    · rintro ⟨y, hy, rfl⟩; exact ⟨y, hy, (e y hy).symm⟩
  · rw [a.accepts]
    have : ∀ l', Accepts g l' w → l'.map (onPair f) = l'.map (onPair h) := by
      rintro l' ⟨q, v, u, hpath, _, _⟩
      exact List.map_congr_left fun p hp' => hp p (Lexc.path_labels hpath p hp')
    constructor
    · rintro ⟨l', h1, rfl⟩; exact ⟨l', h1, this l' h1⟩
    · rintro ⟨l', h1, rfl⟩; exact ⟨l', h1, (this l' h1).symm⟩
  · rw [a.labels]
    constructor
    · rintro ⟨q, h1, rfl⟩; exact ⟨q, h1, hp q h1⟩
    · rintro ⟨q, h1, rfl⟩; exact ⟨q, h1, (hp q h1).symm⟩

/-- The substitution of one symbol, on both sides. -/
theorem substitute_renamed {g : Graph} (hg : Good g) {x y : Sym} (hx : x ≠ []) (hy : y ≠ []) (hxy : x ≠ y)
    (h1 : x ≠ epsilon) (h2 : x ≠ unknown) (h3 : x ≠ identity) :
    ∃ r, g.substitute x y true true = .ok r ∧ Renamed (fun z => if z = x then y else z) g (convert r) := by
  have hsp : ∀ r : Graph, Renamed (fun z => if z = x then y else z) g r → Renamed (fun z => if z = x then y else z) g (convert r) := by
    intro r d
    have hl := larger_convert r
    refine ⟨hl.good d.good, fun z => ?_, fun l w => ?_, fun p => ?_⟩
    · rw [← d.alphabet, mem_convert]
      refine ⟨fun h => ?_, .inl⟩
      rcases h with h | rfl | rfl | rfl
      · exact h
      · exact d.good.alpha.eps
      · exact d.good.alpha.unk
      · exact d.good.alpha.idn
    · rw [hl.accepts, d.accepts]
    · rw [hl.label, d.labels]
  have hren : renamePair x y true true = onPair (fun z => if z = x then y else z) := by
    funext p
    simp [renamePair, onPair]
  by_cases hin : x ∈ g.alphabet
  · have e : g.substitute x y true true = .ok { g with
        states := g.states.map fun l => l.map (substArc x y true true)
        alphabet := setInsert (setErase g.alphabet x) y } := by
      unfold Graph.substitute
      rw [if_neg, if_neg hxy, if_neg (not_not.mpr hin)]
      · dsimp only
        rw [if_pos]
        simp [h1, h2, h3]
      · simp [isValidSymbol, hx, hy]
    refine ⟨_, e, hsp _ ?_⟩
    have hacc := C19_substitute g _ hg.alpha x y true true e
    have hal : ∀ z, z ∈ setInsert (setErase g.alphabet x) y ↔ ∃ u ∈ g.alphabet, z = if u = x then y else u := by
      intro z
      rw [mem_setInsert, mem_setErase]
      constructor
      · rintro (rfl | ⟨hz, hne⟩)
        · exact ⟨x, hin, (if_pos rfl).symm⟩
        · exact ⟨z, hz, (if_neg hne).symm⟩
      · rintro ⟨u, hu, rfl⟩
        by_cases hux : u = x
        · rw [if_pos hux]; exact .inl rfl
        · rw [if_neg hux]; exact .inr ⟨hu, hux⟩
    have harcs : ∀ s, Graph.arcs ({ g with
        states := g.states.map fun l => l.map (substArc x y true true)
        alphabet := setInsert (setErase g.alphabet x) y } : Graph) s = (g.arcs s).map (substArc x y true true) := by
      intro s
      rw [arcs_map g _ (by simp)]
    have hlab : ∀ a : Arc, (substArc x y true true a).label = onPair (fun z => if z = x then y else z) a.label := by
      intro a
      by_cases e1 : a.inp = x <;> by_cases e2 : a.out = x <;> simp [substArc, onPair, Arc.label, e1, e2]
    refine ⟨⟨WF.apply hg.wf (.substitute x y true true) e, ⟨?_, ?_, ?_, ?_⟩, hg.finals⟩, hal, fun l w => ?_, fun p => ?_⟩
    · intro s a ha
      rw [harcs] at ha
      obtain ⟨b, hb, rfl⟩ := List.mem_map.mp ha
      have := hg.alpha.arcs s b hb
      have hl := hlab b
      simp only [Arc.label, onPair, Prod.mk.injEq] at hl
      exact ⟨(hal _).mpr ⟨b.inp, this.1, hl.1⟩, (hal _).mpr ⟨b.out, this.2, hl.2⟩⟩
    · exact (hal _).mpr ⟨epsilon, hg.alpha.eps, (if_neg h1.symm).symm⟩
    · exact (hal _).mpr ⟨unknown, hg.alpha.unk, (if_neg h2.symm).symm⟩
    · exact (hal _).mpr ⟨identity, hg.alpha.idn, (if_neg h3.symm).symm⟩
    · rw [hacc, hren]
    · constructor
      · rintro ⟨s, a, ha, rfl⟩
        rw [harcs] at ha
        obtain ⟨b, hb, rfl⟩ := List.mem_map.mp ha
        exact ⟨b.label, ⟨s, b, hb, rfl⟩, hlab b⟩
      · rintro ⟨_, ⟨s, b, hb, rfl⟩, rfl⟩
        exact ⟨s, substArc x y true true b, by rw [harcs]; exact List.mem_map.mpr ⟨b, hb, rfl⟩, hlab b⟩
  · refine ⟨g, ?_, hsp _ ((Renamed.refl hg).congr hg fun z hz => ?_)⟩
    · unfold Graph.substitute
      rw [if_neg, if_neg hxy, if_pos hin]
      simp [isValidSymbol, hx, hy]
    · have : z ≠ x := fun e => hin (e ▸ hz)
      rw [if_neg this]
      rfl

/-- What the loop makes of a symbol. -/
def unescaped (xs : List Sym) (z : Sym) : Sym := if z ∈ xs ∧ z.take 2 = ['_', '@'] then z.drop 1 else z

theorem unescapeFlags_spec (xs : List Sym) {g : Graph} (hg : Good g) : ∃ r, unescapeFlags xs g = .ok r ∧ Renamed (unescaped xs) g r := by
  induction xs generalizing g with
  | nil => exact ⟨g, rfl, (Renamed.refl hg).congr hg fun z _ => by simp [unescaped]⟩
  | cons x xs ih =>
    by_cases hx : x.take 2 = ['_', '@']
    · have hcons : ∃ t, x = '_' :: '@' :: t := by
        match x, hx with
        | a :: b :: t, h =>
          simp only [List.take_succ_cons, List.take_zero, List.cons.injEq, and_true] at h
          exact ⟨t, by rw [h.1, h.2]⟩
      obtain ⟨t, rfl⟩ := hcons
      have hne : ∀ y : Sym, y[0]? ≠ some '_' → ('_' :: '@' :: t : Sym) ≠ y := fun y hy e => hy (e ▸ rfl)
      obtain ⟨r, e, d⟩ := substitute_renamed hg (x := '_' :: '@' :: t) (y := '@' :: t) (by simp) (by simp)
        (by simp) (hne _ (by decide)) (hne _ (by decide)) (hne _ (by decide))
      obtain ⟨r', e', d'⟩ := ih d.good
      refine ⟨r', ?_, (d.trans d').congr hg fun z _ => ?_⟩
      · unfold unescapeFlags
        rw [if_pos hx]
        show (g.substitute ('_' :: '@' :: t) ('@' :: t) true true).bind _ = _
        rw [e]
        exact e'
      · show unescaped xs (if z = '_' :: '@' :: t then '@' :: t else z) = unescaped (('_' :: '@' :: t) :: xs) z
        by_cases hz : z = '_' :: '@' :: t
        · rw [if_pos hz, hz]
          unfold unescaped
          rw [if_neg, if_pos ⟨by simp, hx⟩]
          · rfl
          · rintro ⟨_, h⟩
            cases t <;> simp at h
        · rw [if_neg hz]
          unfold unescaped
          simp only [List.mem_cons, hz, false_or]
    · obtain ⟨r, e, d⟩ := ih hg
      refine ⟨r, ?_, d.congr hg fun z _ => ?_⟩
      · unfold unescapeFlags
        rw [if_neg hx]
        exact e
      · unfold unescaped
        by_cases hz : z = x
        · rw [hz, if_neg (fun h => hx h.2), if_neg (fun h => hx h.2)]
        · simp only [List.mem_cons, hz, false_or]

/-! ## The filter with flags -/

theorem forall₂_cut {R : Sym → Sym → Prop} {a b l : List Sym} (h : List.Forall₂ R (a ++ b) l) :
    ∃ l₁ l₂, List.Forall₂ R a l₁ ∧ List.Forall₂ R b l₂ ∧ l = l₁ ++ l₂ := by
  induction a generalizing l with
  | nil => exact ⟨[], l, .nil, h, rfl⟩
  | cons x a ih =>
    cases h with
    | cons h1 h2 =>
      obtain ⟨l₁, l₂, h3, h4, rfl⟩ := ih h2
      exact ⟨_ :: l₁, l₂, .cons h1 h3, h4, rfl⟩

theorem forall₂_mem {R : Sym → Sym → Prop} {s t : List Sym} (h : List.Forall₂ R s t) {y : Sym} (hy : y ∈ t) : ∃ a ∈ s, R a y := by
  induction h with
  | nil => cases hy
  | cons h1 _ ih =>
    rcases List.mem_cons.mp hy with rfl | hy
    · exact ⟨_, by simp, h1⟩
    · obtain ⟨a, ha, hR⟩ := ih hy
      exact ⟨a, by simp [ha], hR⟩

/-- Some filter mentions the flag. -/
def Mentioned (flags : List Sym) (feature y : Sym) : Prop := ∃ x ∈ flags, hasFilter flags feature x = true ∧ Mentions flags feature x y

/-- The strings that the filter lets through: ordinary symbols and flags that are mentioned, and none is blocked. -/
def Passes (flags : List Sym) (feature : Sym) (s : List Sym) : Prop :=
  (∀ y ∈ s, Ordinary y ∨ Mentioned flags feature y) ∧
    ∀ x ∈ flags, hasFilter flags feature x = true → ¬ BlockedBy flags feature x s

/-- Whether a string is blocked depends only on which symbols are which. -/
theorem blocked_iff {R : Sym → Sym → Prop} {F U S F' U' S' : Sym → Prop} {req : Prop}
    (h : ∀ a b, R a b → (F a ↔ F' b) ∧ (U a ↔ U' b) ∧ (S a ↔ S' b)) {s t : List Sym} (hst : List.Forall₂ R s t) :
    Blocked F U S req s ↔ Blocked F' U' S' req t := by
  have main : ∀ {R : Sym → Sym → Prop} {F U S F' U' S' : Sym → Prop}, (∀ a b, R a b → (F a ↔ F' b) ∧ (U a ↔ U' b) ∧ (S a ↔ S' b)) →
      ∀ {s t : List Sym}, List.Forall₂ R s t → Blocked F U S req s → Blocked F' U' S' req t := by
    rintro R F U S F' U' S' h s t hst ⟨p, m, x, q, rfl, hx, hm, hp⟩
    obtain ⟨p', r, hp', hr, rfl⟩ := forall₂_cut hst
    obtain ⟨m', r', hm', hr', rfl⟩ := forall₂_cut hr
    cases hr' with
    | @cons _ x' _ q' hx' hq' =>
      refine ⟨p', m', x', q', rfl, (h _ _ hx').2.2.mp hx, ?_, ?_⟩
      · intro y hy hU
        obtain ⟨a, ha, hR⟩ := forall₂_mem hm' hy
        exact hm a ha ((h _ _ hR).2.1.mpr hU)
      · rcases hp with ⟨p0, y, rfl, hy⟩ | ⟨hr, rfl⟩
        · obtain ⟨p1, r1, _, hr1, rfl⟩ := forall₂_cut hp'
          cases hr1 with
          | @cons _ y' _ n h1 h2 =>
            cases h2
            exact .inl ⟨p1, y', rfl, (h _ _ h1).1.mp hy⟩
        · cases hp'
          exact .inr ⟨hr, rfl⟩
  refine ⟨main h hst, main (R := fun a b => R b a) (fun a b hR => ?_) hst.flip⟩
  obtain ⟨h1, h2, h3⟩ := h b a hR
  exact ⟨h1.symm, h2.symm, h3.symm⟩

theorem mentions_mem {flags : List Sym} {feature x y : Sym} (hx : x ∈ flags) (h : Mentions flags feature x y) : y ∈ flags := by
  rcases h with h | h | rfl
  · exact (mem_flagsWith.mp h).2.2.1
  · exact (mem_flagsWith.mp h).2.2.1
  · exact hx

theorem diacritic_plain {x : Sym} (h : Flags.isDiacritic x = true) : isSpecial x = false ∧ ¬ Ordinary x ∧ (escapeFlag x).take 2 = ['_', '@'] := by
  obtain ⟨o, f, v, hw, rfl⟩ := (Flags.C01_isDiacritic_iff x).mp h
  refine ⟨?_, fun ho => ?_, by simp [escapeFlag, Flags.spell]⟩
  · by_contra hs
    obtain ⟨m, e⟩ := (isSpecial_iff _).mp (by simpa using hs)
    have ho := hw.1
    have : o = '_' := by
      simp [Flags.spell] at e
      exact e.1
    rw [this] at ho
    exact absurd ho (by decide)
  · have := ho.2.2.2.1
    rw [h] at this
    cases this

section
variable {B : Backend} (hB : B.Ok)
include hB

/-- The filter for flags: nothing if there is none, and else an automaton that lets through what it should. -/
theorem flagFilter_spec {flags : List Sym} (hdia : ∀ x ∈ flags, Flags.isDiacritic x = true) (feature : Sym) :
    (flags.filter (hasFilter flags feature) = [] ∧ flagFilter B flags feature = .ok none) ∨
    flags.filter (hasFilter flags feature) ≠ [] ∧ ∃ r, flagFilter B flags feature = .ok (some r) ∧
      Lang r (Mentioned flags feature) (Passes flags feature) := by
  by_cases hne : flags.filter (hasFilter flags feature) = []
  · refine .inl ⟨hne, ?_⟩
    unfold flagFilter
    rw [hne]
    rfl
  right
  obtain ⟨g, e, d⟩ := Lang.filterLoop hB flags feature _ hne
  obtain ⟨r, e', n⟩ := unescapeFlags_spec g.alphabet d.usual.good
  -- the symbols
  have hMf : ∀ y, Mentioned flags feature y → y ∈ flags := by
    rintro y ⟨x, hx, _, h⟩
    exact mentions_mem hx h
  have hMd : ∀ y, Mentioned flags feature y → Flags.isDiacritic y = true := fun y h => hdia y (hMf y h)
  have hal : ∀ y, y ∈ g.alphabet ↔ y = epsilon ∨ y = unknown ∨ y = identity ∨ ∃ z, Mentioned flags feature z ∧ y = escapeFlag z := by
    intro y
    rw [d.alphabet]
    have : (∃ x ∈ flags.filter (hasFilter flags feature), ∃ z, Mentions flags feature x z ∧ y = escapeFlag z) ↔
        ∃ z, Mentioned flags feature z ∧ y = escapeFlag z := by
      constructor
      · rintro ⟨x, hx, z, hz, rfl⟩
        exact ⟨z, ⟨x, (List.mem_filter.mp hx).1, (List.mem_filter.mp hx).2, hz⟩, rfl⟩
      · rintro ⟨z, ⟨x, hx, hf, hz⟩, rfl⟩
        exact ⟨x, List.mem_filter.mpr ⟨hx, hf⟩, z, hz, rfl⟩
    rw [this]
  have fesc : ∀ z, Mentioned flags feature z → unescaped g.alphabet (escapeFlag z) = z := by
    intro z hz
    unfold unescaped
    rw [if_pos ⟨(hal _).mpr (.inr (.inr (.inr ⟨z, hz, rfl⟩))), (diacritic_plain (hMd z hz)).2.2⟩]
    rfl
  have fsp : ∀ z : Sym, z.take 2 ≠ ['_', '@'] → unescaped g.alphabet z = z := by
    intro z hz
    unfold unescaped
    rw [if_neg fun h => hz h.2]
  generalize unescaped g.alphabet = f at *
  have feps := fsp epsilon (by decide)
  have funk := fsp unknown (by decide)
  have fid := fsp identity (by decide)
  have hlab : ∀ q, HasLabel g q → q = (epsilon, epsilon) ∨ q = (identity, identity) ∨
      ∃ z, Mentioned flags feature z ∧ q = (escapeFlag z, escapeFlag z) := by
    rintro ⟨x, y⟩ hq
    obtain ⟨h1, h2⟩ := d.pure _ hq
    dsimp only at h1 h2
    subst h1
    rcases (hal x).mp (label_alpha d.usual.good hq).1 with rfl | h | rfl | ⟨z, hz, rfl⟩
    · exact .inl rfl
    · exact absurd h h2
    · exact .inr (.inl rfl)
    · exact .inr (.inr ⟨z, hz, rfl⟩)
  have ral : ∀ y, y ∈ r.alphabet ↔ y = epsilon ∨ y = unknown ∨ y = identity ∨ Mentioned flags feature y := by
    intro y
    rw [n.alphabet]
    constructor
    · rintro ⟨x, hx, rfl⟩
      rcases (hal x).mp hx with rfl | rfl | rfl | ⟨z, hz, rfl⟩
      · exact .inl feps
      · exact .inr (.inl funk)
      · exact .inr (.inr (.inl fid))
      · rw [fesc z hz]; exact .inr (.inr (.inr hz))
    · rintro (rfl | rfl | rfl | h)
      · exact ⟨epsilon, (hal _).mpr (.inl rfl), feps.symm⟩
      · exact ⟨unknown, (hal _).mpr (.inr (.inl rfl)), funk.symm⟩
      · exact ⟨identity, (hal _).mpr (.inr (.inr (.inl rfl))), fid.symm⟩
      · exact ⟨escapeFlag y, (hal _).mpr (.inr (.inr (.inr ⟨y, h, rfl⟩))), (fesc y h).symm⟩
  have rpure : Pure r := by
    intro p hp
    obtain ⟨q, hq, rfl⟩ := (n.labels p).mp hp
    rcases hlab q hq with rfl | rfl | ⟨z, hz, rfl⟩
    · unfold onPair; rw [feps]; exact ⟨rfl, by decide⟩
    · unfold onPair; rw [fid]; exact ⟨rfl, by decide⟩
    · unfold onPair; rw [fesc z hz]; exact ⟨rfl, (diacritic_ne (hMd z hz)).2.1⟩
  have rusual : Usual r := by
    refine ⟨n.good, paired_of_labels fun p hp => by rw [(rpure p hp).1], fun h => ?_⟩
    rcases (ral _).mp h with h | h | h | h
    · exact absurd h (by decide)
    · exact absurd h (by decide)
    · exact absurd h (by decide)
    · exact (diacritic_ne (hMd _ h)).2.2.2 rfl
  have rplain : Plain r := by
    intro x hx hm
    rcases (ral _).mp hm with h | h | h | h
    · exact .inl h
    · exact .inr (.inl h)
    · exact .inr (.inr h)
    · rw [(diacritic_plain (hMd _ h)).1] at hx; cases hx
  -- the sequences
  have hcost : ∀ k w, Cost r k w ↔ ∃ k', Cost g k' w ∧ k = k'.map (onPair f) := by
    have hstrip : ∀ l : List (Sym × Sym), (∀ p ∈ l, HasLabel g p) → strip (l.map (onPair f)) = (strip l).map (onPair f) := by
      intro l hl
      induction l with
      | nil => rfl
      | cons p l ih =>
        have ih := ih fun q hq => hl q (by simp [hq])
        by_cases hp : p = (epsilon, epsilon)
        · have : onPair f p = (epsilon, epsilon) := by rw [hp]; unfold onPair; rw [feps]
          rw [List.map_cons, this, hp, Lexc.strip_cons_eps, Lexc.strip_cons_eps, ih]
        · rw [List.map_cons, Lexc.strip_cons hp, Lexc.strip_cons, ih, List.map_cons]
          rcases hlab p (hl p (by simp)) with h | rfl | ⟨z, hz, rfl⟩
          · exact absurd h hp
          · unfold onPair; rw [fid]; decide
          · unfold onPair; rw [fesc z hz]
            exact fun h => (diacritic_ne (hMd z hz)).1 (congrArg Prod.fst h)
    have hlabs : ∀ l v, Accepts g l v → ∀ p ∈ l, HasLabel g p := by
      rintro l v ⟨q, u, x, hpath, _, _⟩
      exact Lexc.path_labels hpath
    intro k w
    unfold Cost
    constructor
    · rintro ⟨l, v, h1, rfl, hv⟩
      obtain ⟨l', h2, rfl⟩ := (n.accepts l v).mp h1
      exact ⟨strip l', ⟨l', v, h2, rfl, hv⟩, hstrip l' (hlabs l' v h2)⟩
    · rintro ⟨_, ⟨l', v, h2, rfl, hv⟩, rfl⟩
      exact ⟨l'.map (onPair f), v, (n.accepts _ v).mpr ⟨l', h2, rfl⟩, hstrip l' (hlabs l' v h2), hv⟩
  have hout : ∀ y, Outside r.alphabet y ↔ Ordinary y := by
    intro y
    refine ⟨fun h => h.1, fun h => ⟨h, fun hm => ?_⟩⟩
    rcases (ral _).mp hm with h' | h' | h' | h'
    · exact h.1 h'
    · exact h.2.1 h'
    · exact h.2.2.1 h'
    · exact (diacritic_plain (hMd y h')).2.1 h
  let R : Sym → Sym → Prop := fun a b => (∃ z, Mentioned flags feature z ∧ a = escapeFlag z ∧ b = z) ∨ (Outside g.alphabet a ∧ Ordinary b)
  have escst : ∀ {al : List Sym} {z : Sym} {q : Sym × Sym}, z ≠ unknown → z ≠ identity → (St al (z, z) q ↔ q = (z, z)) := by
    intro al z q h1 h2
    obtain ⟨a, b⟩ := q
    rw [st_iff]
    constructor
    · rintro (⟨h, _⟩ | ⟨_, _, ⟨h, _⟩ | ⟨_, rfl⟩, ⟨h', _⟩ | ⟨_, rfl⟩, _⟩)
      · exact absurd h h2
      · exact absurd h h1
      · exact absurd h h1
      · exact absurd h' h1
      · rfl
    · intro h
      obtain ⟨rfl, rfl⟩ := Prod.mk.inj h
      exact .inr ⟨h2, h2, .inr ⟨h1, rfl⟩, .inr ⟨h1, rfl⟩, fun h => absurd h h1⟩
  have idst : ∀ {al : List Sym} {q : Sym × Sym}, St al (identity, identity) q ↔ ∃ a, q = (a, a) ∧ Outside al a := by
    intro al q
    obtain ⟨a, b⟩ := q
    rw [st_iff]
    constructor
    · rintro (⟨_, _, rfl, h⟩ | ⟨h, _⟩)
      · exact ⟨a, rfl, h⟩
      · exact absurd rfl h
    · rintro ⟨c, h, hc⟩
      obtain ⟨rfl, rfl⟩ := Prod.mk.inj h
      exact .inl ⟨rfl, rfl, rfl, hc⟩
  have hblock : ∀ {s' s : List Sym}, List.Forall₂ R s' s → ∀ x ∈ flags, hasFilter flags feature x = true →
      (EscapedBlocked flags feature x s' ↔ BlockedBy flags feature x s) := by
    intro s' s hR x hx hfil
    refine blocked_iff (R := R) (fun a b hab => ?_) hR
    have key : ∀ N : Sym → Prop, (∀ z, N z → Mentions flags feature x z) → ((∃ z, N z ∧ a = escapeFlag z) ↔ N b) := by
      intro N hN
      rcases hab with ⟨z, _, rfl, rfl⟩ | ⟨ha, hb⟩
      · constructor
        · rintro ⟨z', hz', e⟩
          rw [escapeFlag_inj e]
          exact hz'
        · exact fun h => ⟨_, h, rfl⟩
      · constructor
        · rintro ⟨z, hz, rfl⟩
          exact absurd ((hal _).mpr (.inr (.inr (.inr ⟨z, ⟨x, hx, hfil, hN z hz⟩, rfl⟩)))) ha.2
        · intro h
          exact absurd hb (diacritic_plain (hMd b ⟨x, hx, hfil, hN b h⟩)).2.1
    refine ⟨key _ fun z => .inl, key _ fun z hz => .inr (.inl hz), ?_⟩
    rw [← key (· = x) fun z hz => .inr (.inr hz)]
    constructor
    · exact fun h => ⟨x, rfl, h⟩
    · rintro ⟨z, rfl, h⟩; exact h
  have hmeans : ∀ l w, Means r l w ↔ 0 ≤ w ∧ ∃ s, l = twice s ∧ Passes flags feature s := by
    intro l w
    rw [means_iff]
    constructor
    · rintro ⟨k, hk, hf⟩
      obtain ⟨k', hk', rfl⟩ := (hcost k w).mp hk
      obtain ⟨x₀, hx₀⟩ := exists_outside g.alphabet
      have hkl := hk'.labels
      have hks := hk'.stripped
      have build : ∀ (k' l : List (Sym × Sym)), (∀ p ∈ k', HasLabel g p) → (∀ p ∈ k', p ≠ (epsilon, epsilon)) →
          List.Forall₂ (St r.alphabet) (k'.map (onPair f)) l →
          ∃ s' s, l = twice s ∧ List.Forall₂ (St g.alphabet) k' (twice s') ∧ List.Forall₂ R s' s := by
        intro k'
        induction k' with
        | nil =>
          intro l _ _ hf
          cases hf
          exact ⟨[], [], rfl, .nil, .nil⟩
        | cons p k' ih =>
          intro l h1 h2 hf
          rw [List.map_cons] at hf
          cases hf with
          | @cons _ q _ l' hq hl' =>
            obtain ⟨s', s, rfl, h3, h4⟩ := ih l' (fun p hp => h1 p (by simp [hp])) (fun p hp => h2 p (by simp [hp])) hl'
            rcases hlab p (h1 p (by simp)) with h | rfl | ⟨z, hz, rfl⟩
            · exact absurd h (h2 p (by simp))
            · unfold onPair at hq
              rw [fid] at hq
              obtain ⟨a, rfl, ha⟩ := idst.mp hq
              exact ⟨x₀ :: s', a :: s, rfl, .cons (idst.mpr ⟨x₀, rfl, hx₀⟩) h3, .cons (.inr ⟨hx₀, ha.1⟩) h4⟩
            · unfold onPair at hq
              rw [fesc z hz] at hq
              obtain ⟨_, n1, n2, _⟩ := diacritic_ne (hMd z hz)
              rw [(escst n1 n2).mp hq]
              have hes := (escapeFlag_ordinary z).1
              exact ⟨escapeFlag z :: s', z :: s, rfl, .cons ((escst hes.2.1 hes.2.2.1).mpr rfl) h3, .cons (.inl ⟨z, hz, rfl, rfl⟩) h4⟩
      obtain ⟨s', s, rfl, h3, h4⟩ := build k' l hkl (fun p hp => (Lexc.mem_strip.mp (hks.symm ▸ hp)).2) hf
      obtain ⟨hw, t, e, ht⟩ := (d.means (twice s') w).mp (means_iff.mpr ⟨k', hk', h3⟩)
      cases twice_inj e
      refine ⟨hw, s, rfl, ?_, fun x hx hfil hb => ?_⟩
      · intro y hy
        obtain ⟨a, _, ha⟩ := forall₂_mem h4 hy
        rcases ha with ⟨z, hz, _, rfl⟩ | ⟨_, h⟩
        · exact .inr hz
        · exact .inl h
      · exact ht.2 x (List.mem_filter.mpr ⟨hx, hfil⟩) ((hblock h4 x hx hfil).mpr hb)
    · rintro ⟨hw, s, rfl, hs, hb⟩
      obtain ⟨x₀, hx₀⟩ := exists_outside g.alphabet
      have hs' : ∃ s', List.Forall₂ R s' s := by
        clear hb
        induction s with
        | nil => exact ⟨[], .nil⟩
        | cons y s ih =>
          obtain ⟨s', h⟩ := ih fun z hz => hs z (by simp [hz])
          rcases hs y (by simp) with ho | hm
          · exact ⟨x₀ :: s', .cons (.inr ⟨hx₀, ho⟩) h⟩
          · exact ⟨escapeFlag y :: s', .cons (.inl ⟨y, hm, rfl, rfl⟩) h⟩
      obtain ⟨s', hR⟩ := hs'
      have hord : AllOrdinary s' := by
        intro a ha
        obtain ⟨b, _, h⟩ := forall₂_mem hR.flip ha
        rcases h with ⟨z, _, rfl, _⟩ | ⟨h, _⟩
        · exact (escapeFlag_ordinary z).1
        · exact h.1
      have hm := (d.means (twice s') w).mpr ⟨hw, s', rfl, hord, fun x hx h => by
        obtain ⟨h1, h2⟩ := List.mem_filter.mp hx
        exact hb x h1 h2 ((hblock hR x h1 h2).mp h)⟩
      obtain ⟨k', hk', hf⟩ := means_iff.mp hm
      refine ⟨k'.map (onPair f), (hcost _ w).mpr ⟨k', hk', rfl⟩, ?_⟩
      have hkl := hk'.labels
      clear hk' hm hord hb hs hw
      induction hR generalizing k' with
      | nil =>
        cases hf
        exact .nil
      | cons hab _ ih =>
        cases hf with
        | @cons p _ k'' _ h1 h2 =>
          refine .cons ?_ (ih k'' h2 fun p hp => hkl p (by simp [hp]))
          rcases hlab p (hkl p (by simp)) with rfl | rfl | ⟨z, hz, rfl⟩
          · have := st_from_eps.mp h1
            have hae := congrArg Prod.fst this
            dsimp only at hae
            rcases hab with ⟨z, _, e, _⟩ | ⟨h, _⟩
            · exact absurd (e.symm.trans hae) (escapeFlag_ordinary z).1.1
            · exact absurd hae h.1.1
          · obtain ⟨c, hc, hco⟩ := idst.mp h1
            have hac := congrArg Prod.fst hc
            dsimp only at hac
            unfold onPair
            rw [fid]
            rcases hab with ⟨z, hz, e, _⟩ | ⟨_, h⟩
            · exact absurd ((hal _).mpr (.inr (.inr (.inr ⟨z, hz, hac.symm.trans e⟩)))) hco.2
            · exact idst.mpr ⟨_, rfl, (hout _).mpr h⟩
          · have hes := (escapeFlag_ordinary z).1
            have hac := congrArg Prod.fst ((escst hes.2.1 hes.2.2.1).mp h1)
            dsimp only at hac
            unfold onPair
            rw [fesc z hz]
            obtain ⟨_, n1, n2, _⟩ := diacritic_ne (hMd z hz)
            refine (escst n1 n2).mpr ?_
            rcases hab with ⟨z', _, e, rfl⟩ | ⟨h, _⟩
            · rw [escapeFlag_inj (e.symm.trans hac)]
            · exact absurd ((hal _).mpr (.inr (.inr (.inr ⟨z, hz, hac⟩)))) h.2
  refine ⟨hne, B.optimize r, ?_, Lang.optimize hB ⟨rusual, rplain, rpure, ral, hmeans⟩⟩
  unfold flagFilter
  rw [e]
  dsimp only [Outcome.bind]
  rw [e']

end

end Hfst.Trans
