import Verif.Props.FlagUnescape
import Verif.Props.TransducerCompose

/-!
# Property C80: composition with the filter, and removal of the flags
-/
namespace Hfst.Trans
open Hfst.Basic Graph
open Hfst.Lexc (strip Cost Good HasLabel Star Larger larger_addSymbols strip_map)

theorem same_joined {a b j : List (Sym × Sym)} (h : Joined a b j) : ∀ s, a = twice s → epsilon ∉ s → j = b ∧ s = ins b := by
  induction h with
  | nil =>
    intro s e _
    cases s with
    | nil => exact ⟨rfl, rfl⟩
    | cons x s => simp [twice] at e
  | @both x y z a b c hy _ ih =>
    intro s e hs
    cases s with
    | nil => simp [twice] at e
    | cons u s =>
      simp only [twice, List.map_cons, List.cons.injEq, Prod.mk.injEq] at e
      obtain ⟨⟨rfl, rfl⟩, e⟩ := e
      obtain ⟨rfl, rfl⟩ := ih s e fun h => hs (by simp [h])
      refine ⟨rfl, ?_⟩
      unfold ins
      rw [List.map_cons, List.filter_cons_of_pos (by simpa using hy)]
  | @left x a b c _ ih =>
    intro s e hs
    cases s with
    | nil => simp [twice] at e
    | cons u s =>
      simp only [twice, List.map_cons, List.cons.injEq, Prod.mk.injEq] at e
      obtain ⟨⟨rfl, h⟩, e⟩ := e
      exact absurd (by simp [h]) hs
  | @right z a b c _ ih =>
    intro s e hs
    obtain ⟨rfl, rfl⟩ := ih s e hs
    refine ⟨rfl, ?_⟩
    unfold ins
    rw [List.map_cons, List.filter_cons_of_neg (by simp)]

theorem joined_same {a b j : List (Sym × Sym)} (h : Joined a b j) : ∀ s, b = twice s → epsilon ∉ s → j = a ∧ s = outs a := by
  induction h with
  | nil =>
    intro s e _
    cases s with
    | nil => exact ⟨rfl, rfl⟩
    | cons x s => simp [twice] at e
  | @both x y z a b c hy _ ih =>
    intro s e hs
    cases s with
    | nil => simp [twice] at e
    | cons u s =>
      simp only [twice, List.map_cons, List.cons.injEq, Prod.mk.injEq] at e
      obtain ⟨⟨rfl, rfl⟩, e⟩ := e
      obtain ⟨rfl, rfl⟩ := ih s e fun h => hs (by simp [h])
      refine ⟨rfl, ?_⟩
      unfold outs
      rw [List.map_cons, List.filter_cons_of_pos (by simpa using hy)]
  | @right x a b c _ ih =>
    intro s e hs
    cases s with
    | nil => simp [twice] at e
    | cons u s =>
      simp only [twice, List.map_cons, List.cons.injEq, Prod.mk.injEq] at e
      obtain ⟨⟨h, rfl⟩, e⟩ := e
      exact absurd (by simp [h]) hs
  | @left z a b c _ ih =>
    intro s e hs
    obtain ⟨rfl, rfl⟩ := ih s e hs
    refine ⟨rfl, ?_⟩
    unfold outs
    rw [List.map_cons, List.filter_cons_of_neg (by simp)]

theorem ins_twice {s : List Sym} (h : epsilon ∉ s) : ins (twice s) = s := by
  unfold ins twice
  rw [List.map_map]
  have : (Prod.fst ∘ fun x : Sym => (x, x)) = id := rfl
  rw [this, List.map_id, List.filter_eq_self]
  intro x hx
  simpa using fun e : x = epsilon => h (e ▸ hx)

theorem outs_twice {s : List Sym} (h : epsilon ∉ s) : outs (twice s) = s := by
  unfold outs twice
  rw [List.map_map]
  have : (Prod.snd ∘ fun x : Sym => (x, x)) = id := rfl
  rw [this, List.map_id, List.filter_eq_self]
  intro x hx
  simpa using fun e : x = epsilon => h (e ▸ hx)

theorem eps_not_ins (l : List (Sym × Sym)) : epsilon ∉ ins l := by simp [ins]
theorem eps_not_outs (l : List (Sym × Sym)) : epsilon ∉ outs l := by simp [outs]

theorem Lang.keeps {f : Graph} {S : Sym → Prop} {L : List Sym → Prop} (d : Lang f S L) : KeepsInput f ∧ KeepsOutput f := by
  have : ∀ l w, Means f l w → ∀ x y, (x, y) ∈ l → x = y := by
    intro l w h x y hxy
    obtain ⟨_, s, rfl, _⟩ := (d.means l w).mp h
    obtain ⟨z, _, e⟩ := List.mem_map.mp hxy
    cases e
    rfl
  exact ⟨fun l w h x y hxy _ => (this l w h x y hxy).symm, fun l w h x y hxy _ => this l w h x y hxy⟩

section
variable {B : Backend} (hB : B.Ok)
include hB

/-- Composition with an automaton, from the left. -/
theorem compose_filter_left {f g : Graph} {S : Sym → Prop} {L : List Sym → Prop} (d : Lang f S L) (hL : ∀ s, L s → epsilon ∉ s)
    (hg : Usual g) (hp : Plain g) :
    ∃ r, compose B f g = .ok r ∧ Usual r ∧ (∀ x, x ∈ r.alphabet ↔ x ∈ f.alphabet ∨ x ∈ g.alphabet) ∧
      ∀ l w, Means r l w ↔ Means g l w ∧ L (ins l) := by
  obtain ⟨r, h1, h2, h3, h4, h5⟩ := compose_means hB d.usual hg (d.plain.same hp d.usual.good hg.good)
  refine ⟨r, h1, h2, h3, fun l w => ⟨fun h => ?_, fun ⟨h, hl⟩ => ?_⟩⟩
  · obtain ⟨a, b, j, w₁, w₂, ha, hb, hj, rfl, hw⟩ := h4 l w h
    obtain ⟨hw₁, s, rfl, hs⟩ := (d.means a w₁).mp ha
    obtain ⟨rfl, rfl⟩ := same_joined hj s rfl (hL s hs)
    rw [hb.stripped]
    exact ⟨hb.mono (by omega), hs⟩
  · obtain ⟨j, hj, hm⟩ := h5 (.inl d.keeps.1) (twice (ins l)) l 0 w ((d.means _ _).mpr ⟨Int.le_refl _, _, rfl, hl⟩) h
      (outs_twice (eps_not_ins l))
    obtain ⟨rfl, _⟩ := same_joined hj _ rfl (eps_not_ins l)
    rw [h.stripped, Int.zero_add] at hm
    exact hm

/-- Composition with an automaton, from the right. -/
theorem compose_filter_right {f g : Graph} {S : Sym → Prop} {L : List Sym → Prop} (d : Lang f S L) (hL : ∀ s, L s → epsilon ∉ s)
    (hg : Usual g) (hp : Plain g) :
    ∃ r, compose B g f = .ok r ∧ Usual r ∧ (∀ x, x ∈ r.alphabet ↔ x ∈ g.alphabet ∨ x ∈ f.alphabet) ∧
      ∀ l w, Means r l w ↔ Means g l w ∧ L (outs l) := by
  obtain ⟨r, h1, h2, h3, h4, h5⟩ := compose_means hB hg d.usual (hp.same d.plain hg.good d.usual.good)
  refine ⟨r, h1, h2, h3, fun l w => ⟨fun h => ?_, fun ⟨h, hl⟩ => ?_⟩⟩
  · obtain ⟨a, b, j, w₁, w₂, ha, hb, hj, rfl, hw⟩ := h4 l w h
    obtain ⟨hw₁, s, rfl, hs⟩ := (d.means b w₂).mp hb
    obtain ⟨rfl, rfl⟩ := joined_same hj s rfl (hL s hs)
    rw [ha.stripped]
    exact ⟨ha.mono (by omega), hs⟩
  · obtain ⟨j, hj, hm⟩ := h5 (.inr d.keeps.2) l (twice (outs l)) w 0 h ((d.means _ _).mpr ⟨Int.le_refl _, _, rfl, hl⟩)
      (ins_twice (eps_not_outs l)).symm
    obtain ⟨rfl, _⟩ := joined_same hj _ rfl (eps_not_outs l)
    rw [h.stripped, Int.add_zero] at hm
    exact hm

end

/-! ## Removal of flags -/

/-- The pair has a flag of the feature. -/
def purged (feature : Sym) (p : Sym × Sym) : Bool := purgeSymbol p.1 feature || purgeSymbol p.2 feature

theorem purgeSymbol_diacritic {x feature : Sym} (h : purgeSymbol x feature = true) : Flags.isDiacritic x = true := by
  unfold purgeSymbol at h
  split at h
  · cases h
  · rename_i h'; simpa using h'

theorem purged_st {al : List Sym} {feature : Sym} {p q : Sym × Sym} (h : St al p q) : purged feature p = purged feature q := by
  have hside : ∀ x y : Sym, (x = unknown ∨ x = identity) → Ordinary y → purgeSymbol x feature = purgeSymbol y feature := by
    intro x y hx hy
    have h1 : purgeSymbol x feature = false := by
      cases hb : purgeSymbol x feature with
      | false => rfl
      | true =>
        have := diacritic_ne (purgeSymbol_diacritic hb)
        rcases hx with h | h
        · exact absurd h this.2.1
        · exact absurd h this.2.2.1
    have h2 : purgeSymbol y feature = false := by
      cases hb : purgeSymbol y feature with
      | false => rfl
      | true =>
        have := purgeSymbol_diacritic hb
        rw [hy.2.2.2.1] at this
        cases this
    rw [h1, h2]
  obtain ⟨i, o⟩ := p
  obtain ⟨x, y⟩ := q
  unfold purged
  dsimp only
  rcases st_iff.mp h with ⟨rfl, rfl, rfl, ho⟩ | ⟨_, _, h1, h2, _⟩
  · rw [hside identity x (.inr rfl) ho.1]
  · have e1 : purgeSymbol i feature = purgeSymbol x feature := by
      rcases h1 with ⟨rfl, ho⟩ | ⟨_, rfl⟩
      · exact hside unknown x (.inl rfl) ho.1
      · rfl
    have e2 : purgeSymbol o feature = purgeSymbol y feature := by
      rcases h2 with ⟨rfl, ho⟩ | ⟨_, rfl⟩
      · exact hside unknown y (.inl rfl) ho.1
      · rfl
    rw [e1, e2]

/-- The labels after `flag_purge`. -/
def purgePair (feature : Sym) (p : Sym × Sym) : Sym × Sym := if purged feature p then (epsilon, epsilon) else p

theorem purge_good {g : Graph} (hg : Usual g) (feature : Sym) : Usual (convert (g.flagPurge feature)) ∧
    (∀ x, x ∈ (convert (g.flagPurge feature)).alphabet ↔ x ∈ g.alphabet ∧ purgeSymbol x feature = false) ∧
    ∀ l w, Means (convert (g.flagPurge feature)) l w ↔ ∃ l', Means g l' w ∧ l = l'.filter fun p => !purged feature p := by
  have hspecial : ∀ x, x = epsilon ∨ x = unknown ∨ x = identity → purgeSymbol x feature = false := by
    intro x hx
    cases hb : purgeSymbol x feature with
    | false => rfl
    | true =>
      have := diacritic_ne (purgeSymbol_diacritic hb)
      rcases hx with h | h | h
      · exact absurd h this.1
      · exact absurd h this.2.1
      · exact absurd h this.2.2.1
  have hal : ∀ x, x ∈ (convert (g.flagPurge feature)).alphabet ↔ x ∈ g.alphabet ∧ purgeSymbol x feature = false := by
    intro x
    rw [mem_convert]
    have : x ∈ (g.flagPurge feature).alphabet ↔ x ∈ g.alphabet ∧ purgeSymbol x feature = false := by
      unfold Graph.flagPurge Graph.removeSymbols
      dsimp only
      rw [mem_foldl_setErase, List.mem_filter]
      constructor
      · rintro ⟨h1, h2⟩
        refine ⟨h1, ?_⟩
        cases hb : purgeSymbol x feature with
        | false => rfl
        | true => exact absurd ⟨h1, hb⟩ h2
      · rintro ⟨h1, h2⟩
        refine ⟨h1, fun h => ?_⟩
        rw [h2] at h
        cases h.2
    rw [this]
    constructor
    · rintro (h | h | h | h)
      · exact h
      · exact ⟨h ▸ hg.good.alpha.eps, hspecial x (.inl h)⟩
      · exact ⟨h ▸ hg.good.alpha.unk, hspecial x (.inr (.inl h))⟩
      · exact ⟨h ▸ hg.good.alpha.idn, hspecial x (.inr (.inr h))⟩
    · exact .inl
  have harcs : ∀ s a', a' ∈ (convert (g.flagPurge feature)).arcs s ↔
      ∃ a ∈ g.arcs s, a'.target = a.target ∧ a'.weight = a.weight ∧ a'.label = purgePair feature a.label := by
    intro s a'
    rw [(larger_convert _).arcs]
    unfold Graph.flagPurge Graph.removeSymbols
    dsimp only
    rw [arcs_map g (fun l => l.map _) (by simp) s, List.mem_map]
    have hp : ∀ a : Arc, (if purgeSymbol a.inp feature || purgeSymbol a.out feature then { a with inp := epsilon, out := epsilon } else a : Arc).label =
        purgePair feature a.label := by
      intro a
      unfold purgePair purged
      by_cases h : (purgeSymbol a.inp feature || purgeSymbol a.out feature) = true
      · rw [if_pos h]
        show _ = if (purgeSymbol a.inp feature || purgeSymbol a.out feature) = true then _ else _
        rw [if_pos h]
        rfl
      · rw [if_neg h]
        show _ = if (purgeSymbol a.inp feature || purgeSymbol a.out feature) = true then _ else _
        rw [if_neg h]
    have htw : ∀ a : Arc, (if purgeSymbol a.inp feature || purgeSymbol a.out feature then { a with inp := epsilon, out := epsilon } else a : Arc).target = a.target ∧
        (if purgeSymbol a.inp feature || purgeSymbol a.out feature then { a with inp := epsilon, out := epsilon } else a : Arc).weight = a.weight := by
      intro a
      split <;> exact ⟨rfl, rfl⟩
    constructor
    · rintro ⟨a, ha, rfl⟩
      exact ⟨a, ha, (htw a).1, (htw a).2, hp a⟩
    · rintro ⟨a, ha, h1, h2, h3⟩
      refine ⟨a, ha, ?_⟩
      have h4 := (hp a).trans h3.symm
      have h5 := (htw a).1.trans h1.symm
      have h6 := (htw a).2.trans h2.symm
      generalize (if purgeSymbol a.inp feature || purgeSymbol a.out feature then { a with inp := epsilon, out := epsilon } else a : Arc) = b at h4 h5 h6
      obtain ⟨t, i, o, v⟩ := b
      obtain ⟨t', i', o', v'⟩ := a'
      simp only [Arc.label, Prod.mk.injEq] at h4 h5 h6
      rw [h4.1, h4.2, h5, h6]
  have hlab : ∀ p, HasLabel (convert (g.flagPurge feature)) p → ∃ q, HasLabel g q ∧ p = purgePair feature q := by
    rintro p ⟨s, a', ha', rfl⟩
    obtain ⟨a, ha, _, _, h⟩ := (harcs s a').mp ha'
    exact ⟨a.label, ⟨s, a, ha, rfl⟩, h⟩
  have hacc : ∀ l w, Accepts (convert (g.flagPurge feature)) l w ↔ ∃ l', Accepts g l' w ∧ l = l'.map (purgePair feature) := by
    intro l w
    rw [relabel_accepts (g := g) (R := fun p p' => p' = purgePair feature p) ?_ (fun _ => ?_)]
    · simp only [forall₂_map]
    · intro s a'
      exact harcs s a'
    · rfl
  have hout : ∀ x, Outside (convert (g.flagPurge feature)).alphabet x ↔ Outside g.alphabet x := by
    intro x
    unfold Outside
    refine and_congr_right fun ho => not_congr ?_
    rw [hal]
    refine ⟨fun h => h.1, fun h => ⟨h, ?_⟩⟩
    cases hb : purgeSymbol x feature with
    | false => rfl
    | true =>
      have := purgeSymbol_diacritic hb
      rw [ho.2.2.2.1] at this
      cases this
  have hst : ∀ p q, St (convert (g.flagPurge feature)).alphabet p q ↔ St g.alphabet p q := by
    rintro ⟨i, o⟩ ⟨x, y⟩
    rw [st_iff, st_iff]
    simp only [hout]
  have hstrip : ∀ l : List (Sym × Sym), strip (l.map (purgePair feature)) = (strip l).filter fun p => !purged feature p := by
    intro l
    induction l with
    | nil => rfl
    | cons p l ih =>
      by_cases hp : p = (epsilon, epsilon)
      · have : purgePair feature p = (epsilon, epsilon) := by
          unfold purgePair
          split
          · rfl
          · exact hp
        rw [List.map_cons, this, hp, Lexc.strip_cons_eps, Lexc.strip_cons_eps, ih]
      · rw [List.map_cons, Lexc.strip_cons hp]
        by_cases hq : purged feature p = true
        · rw [List.filter_cons_of_neg (by simp [hq])]
          unfold purgePair at ih ⊢
          rw [if_pos hq, Lexc.strip_cons_eps, ih]
        · rw [List.filter_cons_of_pos (by simp [hq])]
          have : purgePair feature p = p := by unfold purgePair; rw [if_neg hq]
          rw [this, Lexc.strip_cons hp, ih]
  refine ⟨⟨?_, paired_of_labels fun p hp => ?_, fun h => hg.nonempty ((hal _).mp h).1⟩, hal, fun l w => ?_⟩
  · refine ⟨?_, ⟨?_, (hal _).mpr ⟨hg.good.alpha.eps, hspecial _ (.inl rfl)⟩, (hal _).mpr ⟨hg.good.alpha.unk, hspecial _ (.inr (.inl rfl))⟩,
      (hal _).mpr ⟨hg.good.alpha.idn, hspecial _ (.inr (.inr rfl))⟩⟩, hg.good.finals⟩
    · have hw := hg.good.wf
      have hlen : (convert (g.flagPurge feature)).states.length = g.states.length := by
        rw [(larger_convert _).1]
        simp [Graph.flagPurge, Graph.removeSymbols]
      refine ⟨by rw [hlen]; exact hw.nonempty, ?_, ?_⟩
      · intro s a' ha'
        obtain ⟨a, ha, h1, _, _⟩ := (harcs s a').mp ha'
        rw [hlen, h1]
        exact hw.targets s a ha
      · intro s v hv
        rw [hlen]
        exact hw.finals s v hv
    · intro s a' ha'
      obtain ⟨a, ha, _, _, h3⟩ := (harcs s a').mp ha'
      have hin := hg.good.alpha.arcs s a ha
      unfold purgePair at h3
      by_cases hq : purged feature a.label = true
      · rw [if_pos hq] at h3
        simp only [Arc.label, Prod.mk.injEq] at h3
        rw [h3.1, h3.2]
        exact ⟨(hal _).mpr ⟨hg.good.alpha.eps, hspecial _ (.inl rfl)⟩, (hal _).mpr ⟨hg.good.alpha.eps, hspecial _ (.inl rfl)⟩⟩
      · rw [if_neg hq] at h3
        simp only [Arc.label, Prod.mk.injEq] at h3
        simp only [purged, Arc.label, Bool.or_eq_true, not_or, Bool.not_eq_true] at hq
        rw [h3.1, h3.2]
        exact ⟨(hal _).mpr ⟨hin.1, hq.1⟩, (hal _).mpr ⟨hin.2, hq.2⟩⟩
  · obtain ⟨q, hq, rfl⟩ := hlab p hp
    unfold purgePair
    split
    · exact Iff.rfl
    · exact label_paired hg.paired hq
  · rw [means_iff]
    constructor
    · rintro ⟨_, ⟨l₁, v, h1, rfl, hv⟩, hf⟩
      obtain ⟨l₂, h2, rfl⟩ := (hacc l₁ v).mp h1
      rw [hstrip] at hf
      have hpair : ∀ p ∈ strip l₂, p.1 = identity ↔ p.2 = identity := fun p hp =>
        label_paired hg.paired (Cost.labels ⟨l₂, v, h2, rfl, Int.le_refl v⟩ p hp)
      have build : ∀ k l : List (Sym × Sym), (∀ p ∈ k, p.1 = identity ↔ p.2 = identity) →
          List.Forall₂ (St (convert (g.flagPurge feature)).alphabet) (k.filter fun p => !purged feature p) l →
          ∃ l', List.Forall₂ (St g.alphabet) k l' ∧ l = l'.filter fun p => !purged feature p := by
        intro k
        induction k with
        | nil =>
          intro l _ hf
          cases hf
          exact ⟨[], .nil, rfl⟩
        | cons p k ih =>
          intro l hk hf
          by_cases hp : purged feature p = true
          · rw [List.filter_cons_of_neg (by simp [hp])] at hf
            obtain ⟨l', h1, rfl⟩ := ih l (fun q hq => hk q (by simp [hq])) hf
            obtain ⟨q, hq⟩ := st_exists g.alphabet (hk p (by simp))
            exact ⟨q :: l', .cons hq h1, by rw [List.filter_cons_of_neg (by simp [← purged_st hq, hp])]⟩
          · rw [List.filter_cons_of_pos (by simp [hp])] at hf
            cases hf with
            | @cons _ q _ l₁ hq hl =>
              obtain ⟨l', h1, rfl⟩ := ih l₁ (fun q hq => hk q (by simp [hq])) hl
              have hq := (hst _ _).mp hq
              exact ⟨q :: l', .cons hq h1, by rw [List.filter_cons_of_pos (by simp [← purged_st hq, hp])]⟩
      obtain ⟨l', h3, rfl⟩ := build (strip l₂) l hpair hf
      exact ⟨l', means_iff.mpr ⟨strip l₂, ⟨l₂, v, h2, rfl, hv⟩, h3⟩, rfl⟩
    · rintro ⟨l', hm, rfl⟩
      obtain ⟨_, ⟨l₁, v, h1, rfl, hv⟩, hf⟩ := means_iff.mp hm
      refine ⟨_, ⟨l₁.map (purgePair feature), v, (hacc _ v).mpr ⟨l₁, h1, rfl⟩, hstrip l₁, hv⟩, ?_⟩
      clear hm h1
      generalize strip l₁ = k at hf
      induction hf with
      | nil => exact .nil
      | @cons p q k l' h1 _ ih =>
        by_cases hp : purged feature p = true
        · rw [List.filter_cons_of_neg (by simp [hp]), List.filter_cons_of_neg (by simp [← purged_st h1, hp])]
          exact ih
        · rw [List.filter_cons_of_pos (by simp [hp]), List.filter_cons_of_pos (by simp [← purged_st h1, hp])]
          exact .cons ((hst _ _).mpr h1) ih

end Hfst.Trans
