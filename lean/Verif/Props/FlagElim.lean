import Verif.Props.FlagPurge
import Verif.Props.TransducerBackend

/-!
# Property C80: elimination of flag diacritics
-/
namespace Hfst.Trans
open Hfst.Basic Graph
open Hfst.Lexc (strip Cost Good HasLabel Star)

theorem mem_getFlags {g : Graph} {x : Sym} : x ∈ g.getFlags ↔ x ∈ g.alphabet ∧ Flags.isDiacritic x = true := by
  unfold Graph.getFlags
  rw [List.mem_filter]

theorem passes_eps {flags : List Sym} (hdia : ∀ x ∈ flags, Flags.isDiacritic x = true) {feature : Sym} {s : List Sym}
    (h : Passes flags feature s) : epsilon ∉ s := by
  intro he
  rcases h.1 _ he with h | ⟨x, hx, _, h⟩
  · exact h.1 rfl
  · exact (diacritic_ne (hdia _ (mentions_mem hx h))).1 rfl

section
variable {B : Backend} (hB : B.Ok)
include hB

/-- What elimination does, in terms of the filters. -/
theorem eliminate_core {g : Graph} (hg : Usual g) (hp : Plain g) (feature : Sym) :
    ∃ r, (flagFilter B g.getFlags feature).bind (applyFilter B g feature) = .ok r ∧ Usual r ∧
      (∀ x, x ∈ r.alphabet ↔ x ∈ g.alphabet ∧ purgeSymbol x feature = false) ∧
      ∀ l w, Means r l w ↔ ∃ l', Means g l' w ∧ (g.getFlags.filter (hasFilter g.getFlags feature) ≠ [] →
        Passes g.getFlags feature (ins l') ∧ Passes g.getFlags feature (outs l')) ∧ l = l'.filter fun p => !purged feature p := by
  have hdia : ∀ x ∈ g.getFlags, Flags.isDiacritic x = true := fun x hx => (mem_getFlags.mp hx).2
  rcases flagFilter_spec hB hdia feature with ⟨hne, e⟩ | ⟨hne, f, e, d⟩
  · obtain ⟨u, a, m⟩ := purge_good hg feature
    obtain ⟨h1, h2, h3⟩ := optimize_means hB u
    refine ⟨_, by rw [e]; rfl, h1, fun x => (h2 x).trans (a x), fun l w => ?_⟩
    rw [h3, m]
    simp [hne]
  · obtain ⟨r₁, e₁, u₁, a₁, m₁⟩ := compose_filter_left hB d (fun s hs => passes_eps hdia hs) hg hp
    have p₁ : Plain r₁ := Plain.union d.plain hp a₁
    obtain ⟨r₂, e₂, u₂, a₂, m₂⟩ := compose_filter_right hB d (fun s hs => passes_eps hdia hs) u₁ p₁
    obtain ⟨u, a, m⟩ := purge_good u₂ feature
    obtain ⟨h1, h2, h3⟩ := optimize_means hB u
    refine ⟨B.optimize (convert (r₂.flagPurge feature)), ?_, h1, fun x => ?_, fun l w => ?_⟩
    · rw [e]
      dsimp only [Outcome.bind, applyFilter]
      rw [e₁]
      dsimp only
      rw [e₂]
    · rw [h2, a]
      refine and_congr_left fun _ => ?_
      rw [a₂, a₁]
      have hfg : x ∈ f.alphabet → x ∈ g.alphabet := by
        intro h
        rcases (d.alphabet x).mp h with rfl | rfl | rfl | ⟨y, hy, _, hm⟩
        · exact hg.good.alpha.eps
        · exact hg.good.alpha.unk
        · exact hg.good.alpha.idn
        · exact (mem_getFlags.mp (mentions_mem hy hm)).1
      constructor
      · rintro ((h | h) | h)
        · exact hfg h
        · exact h
        · exact hfg h
      · exact fun h => .inl (.inr h)
    · rw [h3, m]
      simp only [m₂, m₁, hne, ne_eq, not_false_eq_true, true_implies, and_assoc]

end

/-! ## From the filters to the flags -/

theorem obeysFrom_filter (F : Sym → Held) (s : List Sym) : ObeysFrom F s ↔ ObeysFrom F (s.filter fun x => Flags.isDiacritic x) := by
  induction s generalizing F with
  | nil => rfl
  | cons x s ih =>
    by_cases hx : Flags.isDiacritic x = true
    · rw [List.filter_cons_of_pos (by simpa using hx)]
      unfold ObeysFrom
      rw [readFlag_some hx]
      dsimp only
      rw [ih]
    · rw [List.filter_cons_of_neg (by simpa using hx), ← ih]
      conv_lhs => unfold ObeysFrom
      rw [readFlag_none (by simpa using hx)]

theorem flags_ins_outs {l : List (Sym × Sym)} (h : ∀ p ∈ l, (Flags.isDiacritic p.1 = true ∨ Flags.isDiacritic p.2 = true) → p.1 = p.2) :
    (ins l).filter (fun x => Flags.isDiacritic x) = (outs l).filter fun x => Flags.isDiacritic x := by
  unfold ins outs
  induction l with
  | nil => rfl
  | cons p l ih =>
    have ih := ih fun q hq => h q (by simp [hq])
    have hp := h p (by simp)
    obtain ⟨x, y⟩ := p
    dsimp only at hp
    simp only [List.filter_filter, List.map_cons] at ih ⊢
    by_cases hx : Flags.isDiacritic x = true
    · have := hp (.inl hx)
      subst this
      simp only [List.filter_cons, hx]
      split <;> rw [ih]
    · by_cases hy : Flags.isDiacritic y = true
      · have := hp (.inr hy)
        subst this
        exact absurd hy hx
      · rw [List.filter_cons_of_neg (by simp [hx]), List.filter_cons_of_neg (by simp [hy]), ih]

/-- The symbols of an accepted sequence. -/
theorem means_symbols {g : Graph} (hg : Usual g) (hpm : ∀ x ∈ g.alphabet, isPmatchSpecial x = false) {l : List (Sym × Sym)} {w : Int} (h : Means g l w) :
    ∀ p ∈ l, ∀ x, x = p.1 ∨ x = p.2 → x ≠ epsilon → Ordinary x ∨ x ∈ g.getFlags := by
  obtain ⟨k, hk, hf⟩ := means_iff.mp h
  have hlab := hk.labels
  clear hk h
  have lit : ∀ x, x ∈ g.alphabet → x ≠ epsilon → x ≠ unknown → x ≠ identity → Ordinary x ∨ x ∈ g.getFlags := by
    intro x hx h1 h2 h3
    by_cases hd : Flags.isDiacritic x = true
    · exact .inr (mem_getFlags.mpr ⟨hx, hd⟩)
    · exact .inl ⟨h1, h2, h3, by simpa using hd, hpm x hx⟩
  induction hf with
  | nil => intro p hp; cases hp
  | @cons p q k l h1 _ ih =>
    intro p' hp'
    rcases List.mem_cons.mp hp' with rfl | hp'
    · obtain ⟨a1, a2⟩ := label_alpha hg.good (hlab p (by simp))
      obtain ⟨i, o⟩ := p
      obtain ⟨x, y⟩ := p'
      intro z hz hze
      rcases st_iff.mp h1 with ⟨_, _, rfl, ho⟩ | ⟨n1, n2, h3, h4, _⟩
      · rcases hz with rfl | rfl
        · exact .inl ho.1
        · exact .inl ho.1
      · rcases hz with rfl | rfl
        · rcases h3 with ⟨_, ho⟩ | ⟨hne, rfl⟩
          · exact .inl ho.1
          · exact lit _ a1 hze hne n1
        · rcases h4 with ⟨_, ho⟩ | ⟨hne, rfl⟩
          · exact .inl ho.1
          · exact lit _ a2 hze hne n2
    · exact ih (fun q hq => hlab q (by simp [hq])) p' hp'

theorem hasFlag_iff {g : Graph} {x : Sym} {o : Char} {f v : Sym} : HasFlag g x o f v ↔
    x ∈ g.getFlags ∧ o = opChar (flagOp x) ∧ f = flagFeature x ∧ v = flagValue x := by
  unfold HasFlag
  rw [mem_getFlags, and_assoc]
  refine and_congr_right fun _ => ?_
  by_cases hd : Flags.isDiacritic x = true
  · rw [readFlag_some hd]
    simp only [Option.some.injEq, Prod.mk.injEq, hd, true_and]
    constructor
    · rintro ⟨rfl, rfl, rfl⟩; exact ⟨rfl, rfl, rfl⟩
    · rintro ⟨rfl, rfl, rfl⟩; exact ⟨rfl, rfl, rfl⟩
  · rw [readFlag_none (by simpa using hd)]
    simp [hd]

theorem decides_iff {g : Graph} {x y : Sym} : Decides g x y ↔ x ∈ g.getFlags ∧ y ∈ g.getFlags ∧ (flagOp x = .U ∨ flagOp x = .R ∨ flagOp x = .D) ∧
    combination x y ≠ .none := by
  unfold Decides
  simp only [hasFlag_iff]
  constructor
  · rintro ⟨_, _, _, _, _, ⟨hx, rfl, rfl, rfl⟩, ⟨hy, rfl, hf, rfl⟩, h1, h2, h3, h4, h5⟩
    refine ⟨hx, hy, ?_, ?_⟩
    · cases ho : flagOp x <;> simp [ho, opChar] at h1 ⊢
    · unfold combination flagBuild
      rw [if_neg (not_not.mpr hf)]
      generalize flagValue x = v at *
      generalize flagValue y = w at *
      generalize flagOp x = o at *
      generalize flagOp y = o' at *
      by_cases hv : v = [] <;> by_cases hw : v = w <;> cases o <;> cases o' <;> simp_all [opChar]
  · rintro ⟨hx, hy, ho, hc⟩
    obtain ⟨hf, hs⟩ := combination_sets hc
    refine ⟨_, _, _, _, _, ⟨hx, rfl, rfl, rfl⟩, ⟨hy, rfl, hf, rfl⟩, ?_⟩
    unfold combination flagBuild at hc
    rw [if_neg (not_not.mpr hf)] at hc
    unfold Sets at hs
    generalize flagValue x = v at *
    generalize flagValue y = w at *
    generalize flagOp x = o at *
    generalize flagOp y = o' at *
    by_cases hv : v = [] <;> by_cases hw : v = w <;> cases o <;> cases o' <;> simp_all [opChar]

theorem requiredIsSet_of {g : Graph} (h : RequiredSet g) : RequiredIsSet g.getFlags := by
  intro x hx ho
  obtain ⟨y, hy⟩ := h x _ _ (hasFlag_iff.mpr ⟨hx, by rw [ho]; rfl, rfl, rfl⟩)
  obtain ⟨_, h2, _, h4⟩ := decides_iff.mp hy
  obtain ⟨h5, h6⟩ := combination_sets h4
  exact ⟨y, h2, h5.symm, h6⟩

theorem noNegative_of {g : Graph} (h : NegativeAgrees g) : NoNegative g.getFlags := by
  rintro x hx y hy hf ⟨h1, h2, h3⟩
  refine h2 (h x y _ _ _ _ (hasFlag_iff.mpr ⟨hx, rfl, rfl, rfl⟩) (hasFlag_iff.mpr ⟨hy, by rw [h1]; rfl, hf, rfl⟩) ?_)
  rcases h3 with h3 | ⟨h3, h4⟩
  · exact .inl (by rw [h3]; rfl)
  · exact .inr ⟨by rw [h3]; rfl, h4⟩

theorem hasFilter_decides {g : Graph} {feature : Sym} (hfeat : ∀ x ∈ g.getFlags, feature = [] ∨ flagFeature x = feature) {x : Sym}
    (hx : x ∈ g.getFlags) : hasFilter g.getFlags feature x = true ↔ ∃ y, Decides g x y := by
  rw [hasFilter_iff]
  refine exists_congr fun y => ?_
  rw [mem_flagsWith, mem_flagsWith, decides_iff]
  constructor
  · rintro (⟨_, h2, h3, h4⟩ | ⟨_, h2, h3, h4⟩)
    · exact ⟨hx, h3, h2, by rw [h4]; simp⟩
    · exact ⟨hx, h3, h2, by rw [h4]; simp⟩
  · rintro ⟨_, h3, h2, h4⟩
    cases hc : combination x y with
    | fail => exact .inl ⟨hfeat x hx, h2, h3, rfl⟩
    | succeed => exact .inr ⟨hfeat x hx, h2, h3, rfl⟩
    | none => exact absurd hc h4

theorem passes_iff {g : Graph} {feature : Sym} (hfeat : ∀ x ∈ g.getFlags, feature = [] ∨ flagFeature x = feature)
    (hR : RequiredSet g) (hN : NegativeAgrees g) (hA : AllOrNone g) {s : List Sym} (hs : ∀ x ∈ s, Ordinary x ∨ x ∈ g.getFlags) :
    (g.getFlags.filter (hasFilter g.getFlags feature) ≠ [] → Passes g.getFlags feature s) ↔ Obeys s := by
  have hdia : ∀ x ∈ g.getFlags, Flags.isDiacritic x = true := fun x hx => (mem_getFlags.mp hx).2
  have hs' : ∀ x ∈ s, Flags.isDiacritic x = true → x ∈ g.getFlags := by
    intro x hx hd
    rcases hs x hx with h | h
    · exact absurd hd (by rw [h.2.2.2.1]; simp)
    · exact h
  constructor
  · intro h
    refine filters_sound hdia hfeat (requiredIsSet_of hR) hs' fun x hx hf => (h ?_).2 x hx hf
    exact List.ne_nil_of_mem (List.mem_filter.mpr ⟨hx, hf⟩)
  · intro ho hne
    refine ⟨fun y hy => ?_, fun x hx hf => filters_complete hdia (noNegative_of hN) hs' ho hx hf⟩
    rcases hs y hy with h | h
    · exact .inl h
    · refine .inr ?_
      rcases hA with hA | hA
      · obtain ⟨x, hx⟩ := List.exists_mem_of_ne_nil _ hne
        obtain ⟨hx, hf⟩ := List.mem_filter.mp hx
        obtain ⟨z, hz⟩ := (hasFilter_decides hfeat hx).mp hf
        exact absurd hz (hA x z)
      · obtain ⟨x, z, hd, hy⟩ := hA y _ _ _ (hasFlag_iff.mpr ⟨h, rfl, rfl, rfl⟩)
        obtain ⟨hx, hz, ho, hc⟩ := decides_iff.mp hd
        refine ⟨x, hx, (hasFilter_decides hfeat hx).mpr ⟨z, hd⟩, ?_⟩
        rcases hy with rfl | rfl
        · exact .inr (.inr rfl)
        · cases hc' : combination x y with
          | fail => exact .inl (mem_flagsWith.mpr ⟨hfeat x hx, ho, hz, hc'⟩)
          | succeed => exact .inr (.inl (mem_flagsWith.mpr ⟨hfeat x hx, ho, hz, hc'⟩))
          | none => exact absurd hc' hc

theorem purge_all {g : Graph} {feature : Sym} (hfeat : ∀ x ∈ g.getFlags, feature = [] ∨ flagFeature x = feature) {x : Sym}
    (hx : Ordinary x ∨ x = epsilon ∨ x ∈ g.alphabet) : purgeSymbol x feature = Flags.isDiacritic x := by
  unfold purgeSymbol
  by_cases hd : Flags.isDiacritic x = true
  · rw [hd, if_neg (by simp)]
    have hxg : x ∈ g.getFlags := by
      rcases hx with h | rfl | h
      · exact absurd hd (by rw [h.2.2.2.1]; simp)
      · exact absurd hd (by decide)
      · exact mem_getFlags.mpr ⟨h, hd⟩
    rcases hfeat x hxg with h | h
    · rw [if_pos h]
    · split
      · rfl
      · rename_i hne
        unfold flagFeature at h
        cases hf : Flags.getFeature x with
        | none => rw [hf] at h; exact absurd h.symm hne
        | some y => rw [hf] at h; simpa using h
  · simp [hd]

section
variable {B : Backend} (hB : B.Ok)
include hB

theorem eliminate_obeys {g : Graph} (hg : Usual g) (hp : Plain g) (hpm : ∀ x ∈ g.alphabet, isPmatchSpecial x = false) (hfp : FlagPairs g)
    (hR : RequiredSet g) (hN : NegativeAgrees g) (hA : AllOrNone g) {feature : Sym}
    (hfeat : ∀ x ∈ g.getFlags, feature = [] ∨ flagFeature x = feature) :
    ∃ r, (flagFilter B g.getFlags feature).bind (applyFilter B g feature) = .ok r ∧ Usual r ∧
      (∀ x, x ∈ r.alphabet ↔ x ∈ g.alphabet ∧ Flags.isDiacritic x = false) ∧
      ∀ l w, Means r l w ↔ ∃ l', Means g l' w ∧ Obeys (ins l') ∧ l = withoutFlags l' := by
  obtain ⟨r, h1, h2, h3, h4⟩ := eliminate_core hB hg hp feature
  refine ⟨r, h1, h2, fun x => ?_, fun l w => ?_⟩
  · rw [h3]
    refine and_congr_right fun hx => ?_
    rw [purge_all hfeat (.inr (.inr hx))]
  · rw [h4]
    refine exists_congr fun l' => and_congr_right fun hm => ?_
    have hsym := means_symbols hg hpm hm
    have hin : ∀ x ∈ ins l', Ordinary x ∨ x ∈ g.getFlags := by
      intro x hx
      unfold ins at hx
      obtain ⟨hx, hne⟩ := List.mem_filter.mp hx
      obtain ⟨p, hp, rfl⟩ := List.mem_map.mp hx
      exact hsym p hp _ (.inl rfl) (by simpa using hne)
    have hout : ∀ x ∈ outs l', Ordinary x ∨ x ∈ g.getFlags := by
      intro x hx
      unfold outs at hx
      obtain ⟨hx, hne⟩ := List.mem_filter.mp hx
      obtain ⟨p, hp, rfl⟩ := List.mem_map.mp hx
      exact hsym p hp _ (.inr rfl) (by simpa using hne)
    have hio : Obeys (outs l') ↔ Obeys (ins l') := by
      unfold Obeys
      rw [obeysFrom_filter, obeysFrom_filter _ (ins l'), flags_ins_outs (hfp l' w hm)]
    have hsplit : (g.getFlags.filter (hasFilter g.getFlags feature) ≠ [] → Passes g.getFlags feature (ins l') ∧
        Passes g.getFlags feature (outs l')) ↔ Obeys (ins l') := by
      rw [imp_and, passes_iff hfeat hR hN hA hin, passes_iff hfeat hR hN hA hout, hio, and_self]
    have hpur : (l'.filter fun p => !purged feature p) = withoutFlags l' := by
      unfold withoutFlags
      refine List.filter_congr fun p hp => ?_
      have cls : ∀ x, x = p.1 ∨ x = p.2 → Ordinary x ∨ x = epsilon ∨ x ∈ g.alphabet := fun x hx => by
        by_cases he : x = epsilon
        · exact .inr (.inl he)
        · rcases hsym p hp x hx he with h | h
          · exact .inl h
          · exact .inr (.inr (mem_getFlags.mp h).1)
      unfold purged
      rw [purge_all hfeat (cls _ (.inl rfl)), purge_all hfeat (cls _ (.inr rfl))]
      have := hfp l' w hm p hp
      by_cases h1 : Flags.isDiacritic p.1 = true
      · rw [h1]; rfl
      · by_cases h2 : Flags.isDiacritic p.2 = true
        · exact absurd (this (.inr h2) ▸ h2) h1
        · simp [h1, h2]
    rw [hsplit, hpur]

/-- C80.  The elimination of all flags yields a transducer without flags.  It accepts exactly the sequences that are left, without
their flags, of the accepted sequences whose flags all let through.  Missing: transducers with a flag `R` whose feature no flag
sets, see `C80_required_violated`; with `N` flags for values other than those of `U` or `D` flags, see `C80_negative_violated`;
with some flags, but not all, that have nothing to do with any other flag, see `C80_unrelated_violated`; with flags on only one
side of a pair; with pmatch symbols. -/
theorem C80_eliminateFlags_partial (g : Graph) (hg : Usual g) (hp : Plain g) (hpm : ∀ x ∈ g.alphabet, isPmatchSpecial x = false)
    (hfp : FlagPairs g) (hR : RequiredSet g) (hN : NegativeAgrees g) (hA : AllOrNone g) :
    ∃ r, eliminateFlags B g = .ok r ∧ Usual r ∧ (∀ x, x ∈ r.alphabet ↔ x ∈ g.alphabet ∧ Flags.isDiacritic x = false) ∧
      ∀ l w, Means r l w ↔ ∃ l', Means g l' w ∧ Obeys (ins l') ∧ l = withoutFlags l' :=
  eliminate_obeys hB hg hp hpm hfp hR hN hA fun _ _ => .inl rfl

/-- C80.  The elimination of the flags of one feature, for a transducer that has flags of this feature only.  Missing: as for
`C80_eliminateFlags_partial`; and transducers with flags of other features, see `C80_otherFeature_violated`. -/
theorem C80_eliminateFlag_partial (g : Graph) (hg : Usual g) (hp : Plain g) (hpm : ∀ x ∈ g.alphabet, isPmatchSpecial x = false)
    (hfp : FlagPairs g) (hR : RequiredSet g) (hN : NegativeAgrees g) (hA : AllOrNone g) (feature : Sym)
    (hsome : ∃ x o v, HasFlag g x o feature v) (hall : ∀ x o f v, HasFlag g x o f v → f = feature) :
    ∃ r, eliminateFlag B g feature = .ok r ∧ Usual r ∧ (∀ x, x ∈ r.alphabet ↔ x ∈ g.alphabet ∧ Flags.isDiacritic x = false) ∧
      ∀ l w, Means r l w ↔ ∃ l', Means g l' w ∧ Obeys (ins l') ∧ l = withoutFlags l' := by
  obtain ⟨x, o, v, hx⟩ := hsome
  obtain ⟨hx, _, hf, _⟩ := hasFlag_iff.mp hx
  obtain ⟨r, h1, h2⟩ := eliminate_obeys hB hg hp hpm hfp hR hN hA (feature := feature)
    fun y hy => .inr (hall y _ _ _ (hasFlag_iff.mpr ⟨hy, rfl, rfl, rfl⟩))
  refine ⟨r, ?_, h2⟩
  unfold eliminateFlag
  rw [if_neg, h1]
  intro h
  have := List.all_eq_true.mp h x hx
  simp [← hf] at this

end

/-- C80.  The elimination of one feature throws exactly if the transducer has no flag of the feature. -/
theorem C80_eliminateFlag_throws {B : Backend} (hB : B.Ok) (g : Graph) (hg : Usual g) (hp : Plain g) (feature : Sym) :
    eliminateFlag B g feature = .throws ↔ ∀ x o v, ¬ HasFlag g x o feature v := by
  unfold eliminateFlag
  constructor
  · intro h x o v hx
    obtain ⟨hx, _, hf, _⟩ := hasFlag_iff.mp hx
    rw [if_neg] at h
    · obtain ⟨r, h1, _⟩ := eliminate_core hB hg hp feature
      rw [h1] at h
      cases h
    · intro h
      have := List.all_eq_true.mp h x hx
      simp [← hf] at this
  · intro h
    rw [if_pos]
    refine List.all_eq_true.mpr fun x hx => decide_eq_true fun hf => ?_
    exact h x _ _ (hasFlag_iff.mpr ⟨hx, rfl, hf.symm, rfl⟩)

/-! ## Transducers with one sequence -/

/-- The transducer that accepts the symbols `x`, `y`, `z` in this order and nothing else. -/
def three (x y z : Sym) : Graph :=
  { states := [[⟨1, x, x, 0⟩], [⟨2, y, y, 0⟩], [⟨3, z, z, 0⟩], []], finals := [(3, 0)], alphabet := [epsilon, unknown, identity, x, y, z] }

theorem three_arcs {x y z : Sym} {s : Nat} {a : Arc} : a ∈ (three x y z).arcs s ↔
    (s = 0 ∧ a = ⟨1, x, x, 0⟩) ∨ (s = 1 ∧ a = ⟨2, y, y, 0⟩) ∨ (s = 2 ∧ a = ⟨3, z, z, 0⟩) := by
  match s with
  | 0 => simp [three, Graph.arcs]
  | 1 => simp [three, Graph.arcs]
  | 2 => simp [three, Graph.arcs]
  | 3 => simp [three, Graph.arcs]
  | n + 4 => simp [three, Graph.arcs]

theorem three_final {x y z : Sym} {s : Nat} {f : Int} : (three x y z).final s = some f ↔ s = 3 ∧ f = 0 := by
  unfold three Graph.final
  by_cases h : s = 3
  · subst h
    simp [mapGet, eq_comm]
  · simp [mapGet, h, Ne.symm h]

/-- A symbol that stands for itself. -/
def Itself (x : Sym) : Prop := (x ≠ epsilon ∧ x ≠ unknown ∧ x ≠ identity ∧ x ≠ []) ∧ isSpecial x = false

theorem itself_flag {x : Sym} (h : Flags.isDiacritic x = true) : Itself x := ⟨diacritic_ne h, (diacritic_plain h).1⟩

theorem three_usual {x y z : Sym} (hx : Itself x) (hy : Itself y) (hz : Itself z) : Usual (three x y z) ∧ Plain (three x y z) := by
  have hal : (three x y z).alphabet = [epsilon, unknown, identity, x, y, z] := rfl
  refine ⟨⟨⟨⟨by simp [three], ?_, ?_⟩, ⟨?_, by simp [hal], by simp [hal], by simp [hal]⟩, by unfold FinalMap three; simp⟩, ?_, ?_⟩, ?_⟩
  · intro s a ha
    rcases three_arcs.mp ha with ⟨_, rfl⟩ | ⟨_, rfl⟩ | ⟨_, rfl⟩ <;> simp [three]
  · intro s w h
    rw [(three_final.mp h).1]; simp [three]
  · intro s a ha
    rcases three_arcs.mp ha with ⟨_, rfl⟩ | ⟨_, rfl⟩ | ⟨_, rfl⟩ <;> simp [hal]
  · intro s a ha
    rcases three_arcs.mp ha with ⟨_, rfl⟩ | ⟨_, rfl⟩ | ⟨_, rfl⟩ <;> rfl
  · rw [hal]
    intro h
    simp only [List.mem_cons, List.not_mem_nil, or_false] at h
    rcases h with e | e | e | e | e | e
    · exact absurd e (by decide)
    · exact absurd e (by decide)
    · exact absurd e (by decide)
    · exact hx.1.2.2.2 e.symm
    · exact hy.1.2.2.2 e.symm
    · exact hz.1.2.2.2 e.symm
  · intro t ht hm
    rw [hal] at hm
    simp only [List.mem_cons, List.not_mem_nil, or_false] at hm
    rcases hm with e | e | e | rfl | rfl | rfl
    · exact .inl e
    · exact .inr (.inl e)
    · exact .inr (.inr e)
    · rw [hx.2] at ht; cases ht
    · rw [hy.2] at ht; cases ht
    · rw [hz.2] at ht; cases ht

theorem three_accepts {x y z : Sym} {l : List (Sym × Sym)} {w : Int} : Accepts (three x y z) l w ↔ l = [(x, x), (y, y), (z, z)] ∧ w = 0 := by
  constructor
  · rintro ⟨q, v, f, hp, hf, rfl⟩
    obtain ⟨rfl, rfl⟩ := three_final.mp hf
    generalize hs : 0 = s at hp
    cases hp with
    | nil => cases hs
    | cons ha hp =>
      subst hs
      rcases three_arcs.mp ha with ⟨_, rfl⟩ | ⟨h, _⟩ | ⟨h, _⟩
      · dsimp only at hp ⊢
        generalize hs : 1 = s at hp
        cases hp with
        | nil => cases hs
        | cons ha hp =>
          subst hs
          rcases three_arcs.mp ha with ⟨h, _⟩ | ⟨_, rfl⟩ | ⟨h, _⟩
          · cases h
          · dsimp only at hp ⊢
            generalize hs : 2 = s at hp
            cases hp with
            | nil => cases hs
            | cons ha hp =>
              subst hs
              rcases three_arcs.mp ha with ⟨h, _⟩ | ⟨h, _⟩ | ⟨_, rfl⟩
              · cases h
              · cases h
              · dsimp only at hp ⊢
                generalize hs : 3 = s at hp
                cases hp with
                | nil => simp
                | cons ha hp =>
                  subst hs
                  rcases three_arcs.mp ha with ⟨h, _⟩ | ⟨h, _⟩ | ⟨h, _⟩ <;> cases h
          · cases h
      · cases h
      · cases h
  · rintro ⟨rfl, rfl⟩
    exact ⟨3, _, 0, .cons (a := ⟨1, x, x, 0⟩) (three_arcs.mpr (.inl ⟨rfl, rfl⟩)) (.cons (a := ⟨2, y, y, 0⟩) (three_arcs.mpr (.inr (.inl ⟨rfl, rfl⟩)))
      (.cons (a := ⟨3, z, z, 0⟩) (three_arcs.mpr (.inr (.inr ⟨rfl, rfl⟩))) (.nil 3))), three_final.mpr ⟨rfl, rfl⟩, by simp⟩

theorem st_itself {al : List Sym} {x : Sym} (hx : Itself x) {q : Sym × Sym} : St al (x, x) q ↔ q = (x, x) := by
  obtain ⟨⟨h1, h2, h3, h4⟩, _⟩ := hx
  obtain ⟨a, b⟩ := q
  rw [st_iff]
  simp [h2, h3]

theorem three_means {x y z : Sym} (hx : Itself x) (hy : Itself y) (hz : Itself z) {l : List (Sym × Sym)} {w : Int} :
    Means (three x y z) l w ↔ l = [(x, x), (y, y), (z, z)] ∧ 0 ≤ w := by
  have hst : strip [(x, x), (y, y), (z, z)] = [(x, x), (y, y), (z, z)] := by
    unfold strip
    simp [hx.1.1, hy.1.1, hz.1.1]
  rw [means_iff]
  constructor
  · rintro ⟨k, ⟨l', w', ha, rfl, hw⟩, hf⟩
    obtain ⟨rfl, rfl⟩ := three_accepts.mp ha
    rw [hst] at hf
    refine ⟨?_, hw⟩
    obtain ⟨_, _, h1, hf1, rfl⟩ := List.forall₂_cons_left_iff.mp hf
    obtain ⟨_, _, h2, hf2, rfl⟩ := List.forall₂_cons_left_iff.mp hf1
    obtain ⟨_, _, h3, hf3, rfl⟩ := List.forall₂_cons_left_iff.mp hf2
    rw [List.forall₂_nil_left_iff.mp hf3, (st_itself hx).mp h1, (st_itself hy).mp h2, (st_itself hz).mp h3]
  · rintro ⟨rfl, hw⟩
    exact ⟨_, ⟨_, 0, three_accepts.mpr ⟨rfl, rfl⟩, hst, hw⟩,
      .cons ((st_itself hx).mpr rfl) (.cons ((st_itself hy).mpr rfl) (.cons ((st_itself hz).mpr rfl) .nil))⟩

theorem three_flagPairs {x y z : Sym} (hx : Itself x) (hy : Itself y) (hz : Itself z) : FlagPairs (three x y z) := by
  intro l w hm p hp _
  rw [((three_means hx hy hz).mp hm).1] at hp
  simp only [List.mem_cons, List.not_mem_nil, or_false] at hp
  rcases hp with rfl | rfl | rfl <;> rfl

instance {g : Graph} {x y : Sym} : Decidable (Decides g x y) := decidable_of_iff _ decides_iff.symm

theorem requiredSet_iff {g : Graph} : RequiredSet g ↔ ∀ x ∈ g.getFlags, flagOp x = .R → ∃ y ∈ g.getFlags, Decides g x y := by
  constructor
  · intro h x hx ho
    obtain ⟨y, hy⟩ := h x _ _ (hasFlag_iff.mpr ⟨hx, by rw [ho]; rfl, rfl, rfl⟩)
    exact ⟨y, (decides_iff.mp hy).2.1, hy⟩
  · intro h x f v hx
    obtain ⟨hx, ho, _⟩ := hasFlag_iff.mp hx
    obtain ⟨y, _, hy⟩ := h x hx (by cases h' : flagOp x <;> simp [h', opChar] at ho ⊢)
    exact ⟨y, hy⟩

theorem negativeAgrees_iff {g : Graph} : NegativeAgrees g ↔ ∀ x ∈ g.getFlags, ∀ y ∈ g.getFlags, flagFeature x = flagFeature y →
    flagOp y = .N → (flagOp x = .U ∨ flagOp x = .D ∧ flagValue x ≠ []) → flagValue x = flagValue y := by
  constructor
  · intro h x hx y hy hf h1 h3
    refine h x y _ _ _ _ (hasFlag_iff.mpr ⟨hx, rfl, rfl, rfl⟩) (hasFlag_iff.mpr ⟨hy, by rw [h1]; rfl, hf, rfl⟩) ?_
    rcases h3 with h3 | ⟨h3, h4⟩
    · exact .inl (by rw [h3]; rfl)
    · exact .inr ⟨by rw [h3]; rfl, h4⟩
  · intro h x y o f v v' hx hy ho
    obtain ⟨hx', rfl, rfl, rfl⟩ := hasFlag_iff.mp hx
    obtain ⟨hy', ho', hf, rfl⟩ := hasFlag_iff.mp hy
    refine h x hx' y hy' hf (by cases h' : flagOp y <;> simp [h', opChar] at ho' ⊢) ?_
    rcases ho with ho | ⟨ho, h4⟩
    · exact .inl (by cases h' : flagOp x <;> simp [h', opChar] at ho ⊢)
    · exact .inr ⟨by cases h' : flagOp x <;> simp [h', opChar] at ho ⊢, h4⟩

theorem allOrNone_iff {g : Graph} : AllOrNone g ↔ (∀ x ∈ g.getFlags, ∀ y ∈ g.getFlags, ¬ Decides g x y) ∨
    ∀ z ∈ g.getFlags, ∃ x ∈ g.getFlags, ∃ y ∈ g.getFlags, Decides g x y ∧ (z = x ∨ z = y) := by
  unfold AllOrNone
  refine or_congr ?_ ?_
  · exact ⟨fun h x _ y _ => h x y, fun h x y hd => h x (decides_iff.mp hd).1 y (decides_iff.mp hd).2.1 hd⟩
  · constructor
    · intro h z hz
      obtain ⟨x, y, hd, e⟩ := h z _ _ _ (hasFlag_iff.mpr ⟨hz, rfl, rfl, rfl⟩)
      exact ⟨x, (decides_iff.mp hd).1, y, (decides_iff.mp hd).2.1, hd, e⟩
    · intro h z o f v hz
      obtain ⟨x, _, y, _, hd, e⟩ := h z (hasFlag_iff.mp hz).1
      exact ⟨x, y, hd, e⟩

instance {g : Graph} : Decidable (RequiredSet g) := decidable_of_iff _ requiredSet_iff.symm
instance {g : Graph} : Decidable (NegativeAgrees g) := decidable_of_iff _ negativeAgrees_iff.symm
instance {g : Graph} : Decidable (AllOrNone g) := decidable_of_iff _ allOrNone_iff.symm
instance {x : Sym} : Decidable (Itself x) := by unfold Itself; infer_instance

/-! ## Where elimination goes wrong -/

/-- C80 fails for a flag that asks for a feature that no flag sets: the result accepts the sequence, although the flag does not let
through.  Here the transducer accepts `a @R.F.V@ b`. -/
theorem C80_required_violated : ∃ g : Graph, Usual g ∧ Plain g ∧ FlagPairs g ∧ NegativeAgrees g ∧ AllOrNone g ∧
    (∀ l w, Means g l w → ¬ Obeys (ins l)) ∧
    ∀ B : Backend, B.Ok → ∃ r, eliminateFlags B g = .ok r ∧ Means r [(['a'], ['a']), (['b'], ['b'])] 0 := by
  have ha : Itself ['a'] := by decide
  have hb : Itself ['b'] := by decide
  have hr : Itself "@R.F.V@".toList := by decide
  refine ⟨three ['a'] "@R.F.V@".toList ['b'], (three_usual ha hr hb).1, (three_usual ha hr hb).2, three_flagPairs ha hr hb,
    by decide +kernel, by decide +kernel, ?_, ?_⟩
  · intro l w hm ho
    rw [((three_means ha hr hb).mp hm).1] at ho
    have e : ins [(['a'], ['a']), ("@R.F.V@".toList, "@R.F.V@".toList), (['b'], ['b'])] = [['a'], "@R.F.V@".toList, ['b']] := by decide
    have e1 : readFlag ['a'] = none := by decide
    have e2 : readFlag "@R.F.V@".toList = some ('R', ['F'], ['V']) := by decide +kernel
    rw [e] at ho
    unfold Obeys ObeysFrom at ho
    rw [e1] at ho
    dsimp only at ho
    unfold ObeysFrom at ho
    rw [e2] at ho
    simp [Lets] at ho
  · intro B hB
    obtain ⟨r, h1, h2, h3, h4⟩ := eliminate_core hB (three_usual ha hr hb).1 (three_usual ha hr hb).2 []
    refine ⟨r, h1, (h4 _ _).mpr ⟨_, (three_means ha hr hb).mpr ⟨rfl, by decide⟩, ?_, ?_⟩⟩
    · intro h
      exact absurd h (by decide +kernel)
    · decide +kernel

/-- Three flags that let through. -/
theorem obeys_three {x y z : Sym} {o₁ o₂ o₃ : Char} {f₁ f₂ f₃ v₁ v₂ v₃ : Sym} (hx : readFlag x = some (o₁, f₁, v₁))
    (hy : readFlag y = some (o₂, f₂, v₂)) (hz : readFlag z = some (o₃, f₃, v₃)) (h₁ : Lets .nothing o₁ v₁)
    (h₂ : Lets (if f₂ = f₁ then Held.next .nothing o₁ v₁ else .nothing) o₂ v₂)
    (h₃ : Lets (if f₃ = f₂ then Held.next (if f₂ = f₁ then Held.next .nothing o₁ v₁ else .nothing) o₂ v₂ else if f₃ = f₁ then Held.next .nothing o₁ v₁ else .nothing) o₃ v₃) :
    Obeys [x, y, z] := by
  unfold Obeys ObeysFrom
  rw [hx]
  dsimp only
  unfold ObeysFrom
  rw [hy]
  dsimp only
  unfold ObeysFrom
  rw [hz]
  dsimp only
  exact ⟨h₁, h₂, h₃, trivial⟩

theorem obeys_two {x y : Sym} {o₁ o₂ : Char} {f₁ f₂ v₁ v₂ : Sym} (hx : readFlag x = some (o₁, f₁, v₁))
    (hy : readFlag y = some (o₂, f₂, v₂)) : ObeysFrom (fun _ => .nothing) [x, y] ↔
      Lets .nothing o₁ v₁ ∧ Lets (if f₂ = f₁ then Held.next .nothing o₁ v₁ else .nothing) o₂ v₂ := by
  unfold ObeysFrom
  rw [hx]
  dsimp only
  unfold ObeysFrom
  rw [hy]
  dsimp only
  unfold ObeysFrom
  rw [and_true]

/-- C80 fails for `N` flags: in `@P.F.A@ @N.F.B@ @U.F.C@` all flags let through, but the result accepts nothing. -/
theorem C80_negative_violated : ∃ g : Graph, Usual g ∧ Plain g ∧ FlagPairs g ∧ RequiredSet g ∧
    (∃ l, Means g l 0 ∧ Obeys (ins l)) ∧
    ∀ B : Backend, B.Ok → ∃ r, eliminateFlags B g = .ok r ∧ ∀ l w, ¬ Means r l w := by
  have hx : Itself "@P.F.A@".toList := by decide
  have hy : Itself "@N.F.B@".toList := by decide
  have hz : Itself "@U.F.C@".toList := by decide
  have e : ins [("@P.F.A@".toList, "@P.F.A@".toList), ("@N.F.B@".toList, "@N.F.B@".toList), ("@U.F.C@".toList, "@U.F.C@".toList)] =
      ["@P.F.A@".toList, "@N.F.B@".toList, "@U.F.C@".toList] := by decide
  refine ⟨three "@P.F.A@".toList "@N.F.B@".toList "@U.F.C@".toList, (three_usual hx hy hz).1, (three_usual hx hy hz).2,
    three_flagPairs hx hy hz, by decide +kernel, ⟨_, (three_means hx hy hz).mpr ⟨rfl, Int.le_refl _⟩, ?_⟩, ?_⟩
  · rw [e]
    refine obeys_three (o₁ := 'P') (f₁ := ['F']) (v₁ := ['A']) (o₂ := 'N') (f₂ := ['F']) (v₂ := ['B']) (o₃ := 'U') (f₃ := ['F'])
      (v₃ := ['C']) (by decide +kernel) (by decide +kernel) (by decide +kernel) ?_ ?_ ?_
    · simp [Lets]
    · simp [Lets]
    · simp [Lets, Held.next]
  · intro B hB
    obtain ⟨r, h1, h2, h3, h4⟩ := eliminate_core hB (three_usual hx hy hz).1 (three_usual hx hy hz).2 []
    refine ⟨r, h1, fun l w hm => ?_⟩
    obtain ⟨l', hm', hp, _⟩ := (h4 l w).mp hm
    have hp := (hp (by decide +kernel)).1
    rw [((three_means hx hy hz).mp hm').1, e] at hp
    refine hp.2 "@U.F.C@".toList (by decide +kernel) (by decide +kernel) ⟨["@P.F.A@".toList], ["@N.F.B@".toList], "@U.F.C@".toList, [], rfl, rfl, ?_, .inl ⟨[], "@P.F.A@".toList, rfl, ?_⟩⟩
    · decide +kernel
    · decide +kernel

/-- C80 fails for a flag that no filter mentions: in `@U.G.A@ @P.F.A@ @R.F.A@` all flags let through, but the result accepts
nothing, because the filters do not let `@U.G.A@` through. -/
theorem C80_unrelated_violated : ∃ g : Graph, Usual g ∧ Plain g ∧ FlagPairs g ∧ RequiredSet g ∧ NegativeAgrees g ∧
    (∃ l, Means g l 0 ∧ Obeys (ins l)) ∧
    ∀ B : Backend, B.Ok → ∃ r, eliminateFlags B g = .ok r ∧ ∀ l w, ¬ Means r l w := by
  have hx : Itself "@U.G.A@".toList := by decide
  have hy : Itself "@P.F.A@".toList := by decide
  have hz : Itself "@R.F.A@".toList := by decide
  have e : ins [("@U.G.A@".toList, "@U.G.A@".toList), ("@P.F.A@".toList, "@P.F.A@".toList), ("@R.F.A@".toList, "@R.F.A@".toList)] =
      ["@U.G.A@".toList, "@P.F.A@".toList, "@R.F.A@".toList] := by decide
  refine ⟨three "@U.G.A@".toList "@P.F.A@".toList "@R.F.A@".toList, (three_usual hx hy hz).1, (three_usual hx hy hz).2,
    three_flagPairs hx hy hz, by decide +kernel, by decide +kernel, ⟨_, (three_means hx hy hz).mpr ⟨rfl, Int.le_refl _⟩, ?_⟩, ?_⟩
  · rw [e]
    refine obeys_three (o₁ := 'U') (f₁ := ['G']) (v₁ := ['A']) (o₂ := 'P') (f₂ := ['F']) (v₂ := ['A']) (o₃ := 'R') (f₃ := ['F'])
      (v₃ := ['A']) (by decide +kernel) (by decide +kernel) (by decide +kernel) ?_ ?_ ?_
    · simp [Lets]
    · simp [Lets]
    · simp [Lets, Held.next]
  · intro B hB
    obtain ⟨r, h1, h2, h3, h4⟩ := eliminate_core hB (three_usual hx hy hz).1 (three_usual hx hy hz).2 []
    refine ⟨r, h1, fun l w hm => ?_⟩
    obtain ⟨l', hm', hp, _⟩ := (h4 l w).mp hm
    have hp := (hp (by decide +kernel)).1
    rw [((three_means hx hy hz).mp hm').1, e] at hp
    rcases hp.1 "@U.G.A@".toList (by simp) with h | h
    · exact (diacritic_plain (x := "@U.G.A@".toList) (by decide)).2.1 h
    · revert h
      unfold Mentioned Mentions
      decide +kernel

/-- C80 fails for the elimination of one feature, if there are flags of others: in `@P.F.A@ @P.G.A@ @R.F.A@` all flags let
through, but the result accepts nothing. -/
theorem C80_otherFeature_violated : ∃ g : Graph, Usual g ∧ Plain g ∧ FlagPairs g ∧ RequiredSet g ∧ NegativeAgrees g ∧
    (∃ l, Means g l 0 ∧ Obeys (ins l)) ∧
    ∀ B : Backend, B.Ok → ∃ r, eliminateFlag B g ['F'] = .ok r ∧ ∀ l w, ¬ Means r l w := by
  have hx : Itself "@P.F.A@".toList := by decide
  have hy : Itself "@P.G.A@".toList := by decide
  have hz : Itself "@R.F.A@".toList := by decide
  have e : ins [("@P.F.A@".toList, "@P.F.A@".toList), ("@P.G.A@".toList, "@P.G.A@".toList), ("@R.F.A@".toList, "@R.F.A@".toList)] =
      ["@P.F.A@".toList, "@P.G.A@".toList, "@R.F.A@".toList] := by decide
  refine ⟨three "@P.F.A@".toList "@P.G.A@".toList "@R.F.A@".toList, (three_usual hx hy hz).1, (three_usual hx hy hz).2,
    three_flagPairs hx hy hz, by decide +kernel, by decide +kernel, ⟨_, (three_means hx hy hz).mpr ⟨rfl, Int.le_refl _⟩, ?_⟩, ?_⟩
  · rw [e]
    refine obeys_three (o₁ := 'P') (f₁ := ['F']) (v₁ := ['A']) (o₂ := 'P') (f₂ := ['G']) (v₂ := ['A']) (o₃ := 'R') (f₃ := ['F'])
      (v₃ := ['A']) (by decide +kernel) (by decide +kernel) (by decide +kernel) ?_ ?_ ?_
    · simp [Lets]
    · simp [Lets]
    · simp [Lets, Held.next]
  · intro B hB
    obtain ⟨r, h1, h2, h3, h4⟩ := eliminate_core hB (three_usual hx hy hz).1 (three_usual hx hy hz).2 ['F']
    refine ⟨r, ?_, fun l w hm => ?_⟩
    · unfold eliminateFlag
      rw [if_neg (by decide +kernel), h1]
    obtain ⟨l', hm', hp, _⟩ := (h4 l w).mp hm
    have hp := (hp (by decide +kernel)).1
    rw [((three_means hx hy hz).mp hm').1, e] at hp
    rcases hp.1 "@P.G.A@".toList (by simp) with h | h
    · exact (diacritic_plain (x := "@P.G.A@".toList) (by decide)).2.1 h
    · revert h
      unfold Mentioned Mentions
      decide +kernel

/-! ## Examples -/

/-- `@P.F.A@ c @R.F.A@` becomes `c`. -/
example : ∃ r, eliminateFlags reference (three "@P.F.A@".toList ['c'] "@R.F.A@".toList) = .ok r ∧ Means r [(['c'], ['c'])] 0 := by
  have hx : Itself "@P.F.A@".toList := by decide
  have hy : Itself ['c'] := by decide
  have hz : Itself "@R.F.A@".toList := by decide
  obtain ⟨r, h1, _, _, h2⟩ := C80_eliminateFlags_partial reference_ok _ (three_usual hx hy hz).1 (three_usual hx hy hz).2 (by decide +kernel)
    (three_flagPairs hx hy hz) (by decide +kernel) (by decide +kernel) (by decide +kernel)
  refine ⟨r, h1, (h2 _ _).mpr ⟨_, (three_means hx hy hz).mpr ⟨rfl, Int.le_refl _⟩, ?_, by decide +kernel⟩⟩
  have e : ins [("@P.F.A@".toList, "@P.F.A@".toList), (['c'], ['c']), ("@R.F.A@".toList, "@R.F.A@".toList)] =
      ["@P.F.A@".toList, ['c'], "@R.F.A@".toList] := by decide
  rw [e]
  unfold Obeys
  rw [obeysFrom_filter]
  have e' : ["@P.F.A@".toList, ['c'], "@R.F.A@".toList].filter (fun x => Flags.isDiacritic x) = ["@P.F.A@".toList, "@R.F.A@".toList] := by
    decide +kernel
  rw [e', obeys_two (o₁ := 'P') (f₁ := ['F']) (v₁ := ['A']) (o₂ := 'R') (f₂ := ['F']) (v₂ := ['A']) (by decide +kernel) (by decide +kernel)]
  simp [Lets, Held.next]

/-- Of `@P.F.B@ c @R.F.A@` nothing is left. -/
example : ∃ r, eliminateFlag reference (three "@P.F.B@".toList ['c'] "@R.F.A@".toList) ['F'] = .ok r ∧ ∀ l w, ¬ Means r l w := by
  have hx : Itself "@P.F.B@".toList := by decide
  have hy : Itself ['c'] := by decide
  have hz : Itself "@R.F.A@".toList := by decide
  obtain ⟨r, h1, _, _, h2⟩ := C80_eliminateFlag_partial reference_ok _ (three_usual hx hy hz).1 (three_usual hx hy hz).2 (by decide +kernel)
    (three_flagPairs hx hy hz) (by decide +kernel) (by decide +kernel) (by decide +kernel) ['F']
    ⟨"@P.F.B@".toList, 'P', ['B'], by unfold HasFlag; decide +kernel⟩ (by
      intro x o f v h
      obtain ⟨h1, _, h2, _⟩ := hasFlag_iff.mp h
      have hall : ∀ x ∈ (three "@P.F.B@".toList ['c'] "@R.F.A@".toList).getFlags, flagFeature x = ['F'] := by decide +kernel
      rw [h2, hall x h1])
  refine ⟨r, h1, fun l w hm => ?_⟩
  obtain ⟨l', hm', ho, _⟩ := (h2 _ _).mp hm
  rw [((three_means hx hy hz).mp hm').1] at ho
  have e : ins [("@P.F.B@".toList, "@P.F.B@".toList), (['c'], ['c']), ("@R.F.A@".toList, "@R.F.A@".toList)] =
      ["@P.F.B@".toList, ['c'], "@R.F.A@".toList] := by decide
  rw [e] at ho
  unfold Obeys at ho
  rw [obeysFrom_filter] at ho
  have e' : ["@P.F.B@".toList, ['c'], "@R.F.A@".toList].filter (fun x => Flags.isDiacritic x) = ["@P.F.B@".toList, "@R.F.A@".toList] := by
    decide +kernel
  rw [e', obeys_two (o₁ := 'P') (f₁ := ['F']) (v₁ := ['B']) (o₂ := 'R') (f₂ := ['F']) (v₂ := ['A']) (by decide +kernel) (by decide +kernel)] at ho
  simp [Lets, Held.next] at ho

example : eliminateFlag reference (three "@P.F.B@".toList ['c'] "@R.F.A@".toList) ['G'] = .throws := by
  have hx : Itself "@P.F.B@".toList := by decide
  have hy : Itself ['c'] := by decide
  have hz : Itself "@R.F.A@".toList := by decide
  refine (C80_eliminateFlag_throws reference_ok _ (three_usual hx hy hz).1 (three_usual hx hy hz).2 ['G']).mpr fun x o v h => ?_
  obtain ⟨h1, _, h2, _⟩ := hasFlag_iff.mp h
  have : ∀ x ∈ (three "@P.F.B@".toList ['c'] "@R.F.A@".toList).getFlags, ['G'] ≠ flagFeature x := by decide +kernel
  exact this x h1 h2

end Hfst.Trans
