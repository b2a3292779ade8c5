import Verif.Props.Markers

/-!
# Taking a marker away
-/
namespace Hfst.Trans
open Hfst.Basic Hfst.Lexc Graph

/-- The pair with epsilon for the marker. -/
def dropMark (m : Sym) (p : Sym × Sym) : Sym × Sym := (if p.1 = m then epsilon else p.1, if p.2 = m then epsilon else p.2)

/-- The sequence without the marker. -/
def eraseMark (m : Sym) (l : List (Sym × Sym)) : List (Sym × Sym) := strip (l.map (dropMark m))

theorem eraseMark_append (m : Sym) (a b : List (Sym × Sym)) : eraseMark m (a ++ b) = eraseMark m a ++ eraseMark m b := by
  unfold eraseMark
  rw [List.map_append, strip_append]

theorem dropMark_id {m : Sym} {p : Sym × Sym} (h : p.1 ≠ m ∧ p.2 ≠ m) : dropMark m p = p := by
  unfold dropMark
  rw [if_neg h.1, if_neg h.2]

theorem eraseMark_id {m : Sym} {l : List (Sym × Sym)} (h : Avoids m l) (hs : strip l = l) : eraseMark m l = l := by
  unfold eraseMark
  have : l.map (dropMark m) = l := by
    conv => rhs; rw [← List.map_id l]
    exact List.map_congr_left fun p hp => dropMark_id (h p hp)
  rw [this, hs]

theorem eraseMark_mark (m : Sym) : eraseMark m [(m, m)] = [] := by
  simp [eraseMark, dropMark, strip]

theorem means_strip {g : Graph} {l : List (Sym × Sym)} {w : Int} (h : Means g l w) : strip l = l := by
  obtain ⟨l', _, _, rfl, _⟩ := h
  exact strip_strip l'

theorem dropMark_avoids {m : Sym} (hm : m ≠ epsilon) (p : Sym × Sym) : (dropMark m p).1 ≠ m ∧ (dropMark m p).2 ≠ m := by
  unfold dropMark
  dsimp only
  constructor
  · split
    · exact hm.symm
    · assumption
  · split
    · exact hm.symm
    · assumption

theorem eraseMark_avoids {m : Sym} (hm : m ≠ epsilon) (l : List (Sym × Sym)) : Avoids m (eraseMark m l) := by
  intro p hp
  obtain ⟨q, _, rfl⟩ := List.mem_map.mp (strip_sub hp)
  exact dropMark_avoids hm q

/-- A pair with a marker stands for pairs with the marker. -/
theorem st_dropMark {al : List Sym} {m : Sym} (hin : m ∈ al) (h0 : m ≠ epsilon) (h1 : m ≠ unknown)
    (h2 : m ≠ identity) {p : Sym × Sym} (hp : p.1 = identity ↔ p.2 = identity) {q' : Sym × Sym} :
    St al (dropMark m p) q' ↔ ∃ q, St al p q ∧ q' = dropMark m q := by
  obtain ⟨i, o⟩ := p
  obtain ⟨x', y'⟩ := q'
  dsimp only at hp
  have hout : ∀ {x : Sym}, Outside al x → x ≠ m := fun h e => h.2 (e ▸ hin)
  have e1 : epsilon ≠ unknown := by decide
  have e2 : epsilon ≠ identity := by decide
  unfold dropMark
  dsimp only
  by_cases hi : i = m
  · subst hi
    have ho : o ≠ identity := fun e => h2 (hp.mpr e)
    by_cases hom : o = i
    · subst hom
      rw [if_pos rfl, st_iff]
      constructor
      · rintro (⟨h, _⟩ | ⟨_, _, ⟨h, _⟩ | ⟨_, rfl⟩, ⟨h', _⟩ | ⟨_, rfl⟩, _⟩)
        · exact absurd h e2
        · exact absurd h e1
        · exact absurd h e1
        · exact absurd h' e1
        · refine ⟨(o, o), st_iff.mpr (.inr ⟨h2, h2, .inr ⟨h1, rfl⟩, .inr ⟨h1, rfl⟩, fun h => absurd h h1⟩), ?_⟩
          simp
      · rintro ⟨⟨x, y⟩, hq, e⟩
        rcases st_iff.mp hq with ⟨h, _⟩ | ⟨_, _, ⟨h, _⟩ | ⟨_, rfl⟩, ⟨h', _⟩ | ⟨_, rfl⟩, _⟩
        · exact absurd h h2
        · exact absurd h h1
        · exact absurd h h1
        · exact absurd h' h1
        · simp only [if_true, Prod.mk.injEq] at e
          obtain ⟨rfl, rfl⟩ := e
          exact .inr ⟨e2, e2, .inr ⟨e1, rfl⟩, .inr ⟨e1, rfl⟩, fun h => absurd h e1⟩
    · rw [if_pos rfl, if_neg hom, st_iff]
      constructor
      · rintro (⟨h, _⟩ | ⟨_, _, ⟨h, _⟩ | ⟨_, rfl⟩, hy, _⟩)
        · exact absurd h e2
        · exact absurd h e1
        · have hyi : y' ≠ i := by
            rcases hy with ⟨_, hy⟩ | ⟨_, rfl⟩
            · exact hout hy
            · exact hom
          refine ⟨(i, y'), st_iff.mpr (.inr ⟨h2, ho, .inr ⟨h1, rfl⟩, hy, fun h => absurd h h1⟩), ?_⟩
          rw [if_pos rfl, if_neg hyi]
      · rintro ⟨⟨x, y⟩, hq, e⟩
        rcases st_iff.mp hq with ⟨h, _⟩ | ⟨_, _, ⟨h, _⟩ | ⟨_, rfl⟩, hy, _⟩
        · exact absurd h h2
        · exact absurd h h1
        · have hyi : y ≠ x := by
            rcases hy with ⟨_, hy⟩ | ⟨_, rfl⟩
            · exact hout hy
            · exact hom
          dsimp only at e
          rw [if_pos rfl, if_neg hyi] at e
          cases e
          exact .inr ⟨e2, ho, .inr ⟨e1, rfl⟩, hy, fun h => absurd h e1⟩
  · by_cases hom : o = m
    · subst hom
      have hid : i ≠ identity := fun e => h2 (hp.mp e)
      rw [if_neg hi, if_pos rfl, st_iff]
      constructor
      · rintro (⟨_, h, _⟩ | ⟨_, _, hx, ⟨h, _⟩ | ⟨_, rfl⟩, _⟩)
        · exact absurd h e2
        · exact absurd h e1
        · have hxi : x' ≠ o := by
            rcases hx with ⟨_, hx⟩ | ⟨_, rfl⟩
            · exact hout hx
            · exact hi
          refine ⟨(x', o), st_iff.mpr (.inr ⟨hid, h2, hx, .inr ⟨h1, rfl⟩, fun _ h => absurd h h1⟩), ?_⟩
          rw [if_neg hxi, if_pos rfl]
      · rintro ⟨⟨x, y⟩, hq, e⟩
        rcases st_iff.mp hq with ⟨_, h, _⟩ | ⟨_, _, hx, ⟨h, _⟩ | ⟨_, rfl⟩, _⟩
        · exact absurd h h2
        · exact absurd h h1
        · have hxi : x ≠ y := by
            rcases hx with ⟨_, hx⟩ | ⟨_, rfl⟩
            · exact hout hx
            · exact hi
          dsimp only at e
          rw [if_neg hxi, if_pos rfl] at e
          cases e
          exact .inr ⟨hid, e2, hx, .inr ⟨e1, rfl⟩, fun _ h => absurd h e1⟩
    · rw [if_neg hi, if_neg hom]
      have hq : ∀ {x y : Sym}, St al (i, o) (x, y) → x ≠ m ∧ y ≠ m := by
        intro x y hq
        rcases st_iff.mp hq with ⟨_, _, rfl, h⟩ | ⟨_, _, hx, hy, _⟩
        · exact ⟨hout h, hout h⟩
        · refine ⟨?_, ?_⟩
          · rcases hx with ⟨_, hx⟩ | ⟨_, rfl⟩
            · exact hout hx
            · exact hi
          · rcases hy with ⟨_, hy⟩ | ⟨_, rfl⟩
            · exact hout hy
            · exact hom
      constructor
      · intro h
        refine ⟨(x', y'), h, ?_⟩
        rw [if_neg (hq h).1, if_neg (hq h).2]
      · rintro ⟨⟨x, y⟩, h, e⟩
        dsimp only at e
        rw [if_neg (hq h).1, if_neg (hq h).2] at e
        cases e
        exact h

theorem forall₂_eraseMark {al : List Sym} {m : Sym} (hin : m ∈ al) (h0 : m ≠ epsilon) (h1 : m ≠ unknown)
    (h2 : m ≠ identity) {k : List (Sym × Sym)} (hp : ∀ p ∈ k, (p.1 = identity ↔ p.2 = identity)) {l' : List (Sym × Sym)} :
    List.Forall₂ (St al) (eraseMark m k) l' ↔ ∃ l, List.Forall₂ (St al) k l ∧ l' = eraseMark m l := by
  induction k generalizing l' with
  | nil =>
    constructor
    · intro h
      cases h
      exact ⟨[], .nil, rfl⟩
    · rintro ⟨l, h, rfl⟩
      cases h
      exact .nil
  | cons p k ih =>
    have key := fun q' => st_dropMark (q' := q') hin h0 h1 h2 (hp p (by simp))
    have ih := fun l' => ih (l' := l') fun q hq => hp q (by simp [hq])
    have hcons : ∀ (q : Sym × Sym) (l : List (Sym × Sym)), eraseMark m (q :: l) = strip [dropMark m q] ++ eraseMark m l := by
      intro q l
      unfold eraseMark
      rw [← strip_append]
      rfl
    by_cases hpe : dropMark m p = (epsilon, epsilon)
    · rw [hcons, hpe, show strip [(epsilon, epsilon)] = [] from by simp [strip], List.nil_append, ih]
      constructor
      · rintro ⟨l, hl, rfl⟩
        obtain ⟨q, hq, hq'⟩ := (key (epsilon, epsilon)).mp (by rw [hpe]; exact st_eps.mpr rfl)
        refine ⟨q :: l, .cons hq hl, ?_⟩
        rw [hcons, ← hq']
        simp [strip]
      · rintro ⟨_, hl, rfl⟩
        cases hl with
        | @cons _ q _ l hq hl =>
          refine ⟨l, hl, ?_⟩
          have hd : dropMark m q = (epsilon, epsilon) := by
            have h3 := (key (dropMark m q)).mpr ⟨q, hq, rfl⟩
            rw [hpe] at h3
            exact (st_literal (by decide) (by decide)).mp h3
          rw [hcons, hd]
          simp [strip]
    · have hs : strip [dropMark m p] = [dropMark m p] := by simp [strip, hpe]
      have hne : ∀ {q}, St al p q → dropMark m q ≠ (epsilon, epsilon) := by
        intro q hq e
        have h3 := (key (dropMark m q)).mpr ⟨q, hq, rfl⟩
        rw [e] at h3
        exact hpe (st_eps.mp h3)
      rw [hcons, hs]
      constructor
      · intro h
        cases h with
        | cons ha hb =>
          obtain ⟨q, hq, rfl⟩ := (key _).mp ha
          obtain ⟨l, hl, rfl⟩ := (ih _).mp hb
          refine ⟨q :: l, .cons hq hl, ?_⟩
          rw [hcons]
          simp [strip, hne hq]
      · rintro ⟨_, hl, rfl⟩
        cases hl with
        | @cons _ q _ l hq hl =>
          have : strip [dropMark m q] = [dropMark m q] := by simp [strip, hne hq]
          rw [hcons, this]
          exact .cons ((key _).mpr ⟨q, hq, rfl⟩) ((ih _).mpr ⟨l, hl, rfl⟩)

theorem eraseMark_strip (m : Sym) (hm : m ≠ epsilon) (l : List (Sym × Sym)) : eraseMark m (strip l) = eraseMark m l :=
  strip_map (dropMark m) (dropMark_id ⟨hm.symm, hm.symm⟩) l

theorem avoids_eraseMark {x m : Sym} (hx : x ≠ epsilon) (hxm : x ≠ m) {l : List (Sym × Sym)} :
    Avoids x (eraseMark m l) ↔ Avoids x l := by
  have hd : ∀ p : Sym × Sym, ((dropMark m p).1 ≠ x ∧ (dropMark m p).2 ≠ x) ↔ p.1 ≠ x ∧ p.2 ≠ x := by
    intro p
    have : ∀ y : Sym, (if y = m then epsilon else y) ≠ x ↔ y ≠ x := by
      intro y
      split
      · rename_i h
        exact ⟨fun _ e => hxm (e.symm.trans h), fun _ => hx.symm⟩
      · exact Iff.rfl
    unfold dropMark
    dsimp only
    rw [this, this]
  unfold Avoids eraseMark
  constructor
  · intro h p hp
    by_cases he : dropMark m p = (epsilon, epsilon)
    · exact (hd p).mp (by rw [he]; exact ⟨hx.symm, hx.symm⟩)
    · exact (hd p).mp (h _ (mem_strip.mpr ⟨List.mem_map.mpr ⟨p, hp, rfl⟩, he⟩))
  · intro h q hq
    obtain ⟨p, hp, rfl⟩ := List.mem_map.mp (strip_sub hq)
    exact (hd p).mpr (h p hp)

theorem substArc_label (m : Sym) (a : Arc) : (substArc m epsilon true true a).label = dropMark m a.label := by
  unfold substArc dropMark Arc.label
  by_cases e1 : a.inp = m <;> by_cases e2 : a.out = m <;> simp [e1, e2]

/-- Substituting epsilon for a marker. -/
theorem DenM.erase {ms : List Sym} (hms : Markers ms) {m : Sym} (hm : m ∈ ms) {g : Graph} {L : List (Sym × Sym) → Int → Prop}
    (d : DenM ms g L) : ∃ r, g.substitute m epsilon true true = .ok r ∧ m ∉ r.alphabet ∧ DenM ms r fun l' w => ∃ l, L l w ∧ l' = eraseMark m l := by
  obtain ⟨hs, h0, h1, h2⟩ := hms m hm
  have hne : m ≠ [] := fun e => hms.nonempty (e ▸ hm)
  by_cases hin : m ∈ g.alphabet
  · -- the marker occurs
    have hsub : ∃ r, g.substitute m epsilon true true = .ok r ∧
        (∀ x, x ∈ r.alphabet ↔ x ∈ g.alphabet ∧ x ≠ m) ∧ r.states = g.states.map (fun l => l.map (substArc m epsilon true true)) ∧
        r.finals = g.finals := by
      unfold Graph.substitute
      have hv : (!isValidSymbol m || !isValidSymbol epsilon) = false := by
        have : isValidSymbol m = true := by
          unfold isValidSymbol
          simpa using hne
        rw [this]
        decide
      rw [if_neg (by rw [hv]; simp), if_neg h0, if_neg (by simpa using hin)]
      refine ⟨_, rfl, fun x => ?_, rfl, rfl⟩
      dsimp only
      have hc : (true && true && (decide (m ≠ epsilon) && decide (m ≠ unknown) && decide (m ≠ identity))) = true := by
        simp [h0, h1, h2]
      rw [if_pos hc, mem_setInsert, mem_setErase]
      constructor
      · rintro (rfl | ⟨h, h'⟩)
        · exact ⟨d.usual.good.alpha.eps, h0.symm⟩
        · exact ⟨h, h'⟩
      · rintro ⟨h, h'⟩
        exact .inr ⟨h, h'⟩
    obtain ⟨r, e, hal, hst, hfi⟩ := hsub
    have harcs : ∀ s, r.arcs s = (g.arcs s).map (substArc m epsilon true true) := by
      intro s
      have := arcs_map g (fun l => l.map (substArc m epsilon true true)) rfl s r.alphabet
      unfold Graph.arcs at this ⊢
      rw [hst]
      exact this
    have hmr : m ∉ r.alphabet := fun h => ((hal m).mp h).2 rfl
    have hlab : ∀ p, HasLabel r p ↔ ∃ q, HasLabel g q ∧ p = dropMark m q := by
      intro p
      constructor
      · rintro ⟨s, a, ha, rfl⟩
        rw [harcs, List.mem_map] at ha
        obtain ⟨b, hb, rfl⟩ := ha
        exact ⟨b.label, ⟨s, b, hb, rfl⟩, substArc_label m b⟩
      · rintro ⟨_, ⟨s, b, hb, rfl⟩, rfl⟩
        refine ⟨s, substArc m epsilon true true b, by rw [harcs]; exact List.mem_map.mpr ⟨b, hb, rfl⟩, ?_⟩
        exact substArc_label m b
    have hside : ∀ y, y ∈ g.alphabet → (if y = m then epsilon else y) ∈ r.alphabet := by
      intro y hy
      split
      · exact (hal _).mpr ⟨d.usual.good.alpha.eps, h0.symm⟩
      · rename_i hn
        exact (hal _).mpr ⟨hy, hn⟩
    have ur : Usual r := by
      refine ⟨⟨⟨?_, ?_, ?_⟩, ⟨?_, ?_, ?_, ?_⟩, ?_⟩, ?_, ?_⟩
      · rw [hst, List.length_map]; exact d.usual.good.wf.nonempty
      · intro s a ha
        rw [harcs, List.mem_map] at ha
        obtain ⟨b, hb, rfl⟩ := ha
        rw [hst, List.length_map]
        exact d.usual.good.wf.targets s b hb
      · intro s w hw
        rw [hst, List.length_map]
        exact d.usual.good.wf.finals s w (by simpa [Graph.final, hfi] using hw)
      · intro s a ha
        obtain ⟨q, ⟨s', b, hb, rfl⟩, hq⟩ := (hlab a.label).mp ⟨s, a, ha, rfl⟩
        obtain ⟨c1, c2⟩ := d.usual.good.alpha.arcs s' b hb
        have e1 := congrArg Prod.fst hq
        have e2 := congrArg Prod.snd hq
        simp only [Arc.label, dropMark] at e1 e2
        rw [e1, e2]
        exact ⟨hside _ c1, hside _ c2⟩
      · exact (hal _).mpr ⟨d.usual.good.alpha.eps, h0.symm⟩
      · exact (hal _).mpr ⟨d.usual.good.alpha.unk, h1.symm⟩
      · exact (hal _).mpr ⟨d.usual.good.alpha.idn, h2.symm⟩
      · unfold FinalMap
        rw [hfi]
        exact d.usual.good.finals
      · refine paired_of_labels fun p hp => ?_
        obtain ⟨q, hq, rfl⟩ := (hlab p).mp hp
        have := label_paired d.usual.paired hq
        unfold dropMark
        dsimp only
        have h3 : ∀ y : Sym, (if y = m then epsilon else y) = identity ↔ y = identity := by
          intro y
          split
          · rename_i hy
            rw [hy]
            exact ⟨fun h => absurd h (by decide), fun h => absurd h h2⟩
          · exact Iff.rfl
        rw [h3, h3]
        exact this
      · exact fun h => d.usual.nonempty ((hal _).mp h).1
    refine ⟨r, e, hmr, ur, fun x hx hm' => d.plain x hx ((hal x).mp hm').1, fun l' w => ?_⟩
    obtain ⟨u', hal', me'⟩ := addSymbol_means ur hmr hne
    have hsame : ∀ x, x ∈ (r.addSymbol m).alphabet ↔ x ∈ g.alphabet := by
      intro x
      rw [hal', hal]
      constructor
      · rintro (⟨h, _⟩ | rfl)
        · exact h
        · exact hin
      · intro h
        by_cases hx : x = m
        · exact .inr hx
        · exact .inl ⟨h, hx⟩
    have hcost : ∀ k, Cost (r.addSymbol m) k w ↔ ∃ k₀, Cost g k₀ w ∧ k = eraseMark m k₀ := by
      intro k
      have hl : Larger r (r.addSymbol m) := larger_addSymbols r [m]
      have key : ∀ k v, Accepts (r.addSymbol m) k v ↔ ∃ k₀, Accepts g k₀ v ∧ k = k₀.map (dropMark m) := by
        intro k v
        rw [hl.accepts, C19_substitute g r d.usual.good.alpha m epsilon true true e]
        rfl
      constructor
      · rintro ⟨k', v, hk, rfl, hv⟩
        obtain ⟨k₀, h3, rfl⟩ := (key _ _).mp hk
        exact ⟨strip k₀, ⟨k₀, v, h3, rfl, hv⟩, (eraseMark_strip m h0 k₀).symm⟩
      · rintro ⟨_, ⟨k₀, v, h3, rfl, hv⟩, rfl⟩
        exact ⟨k₀.map (dropMark m), v, (key _ _).mpr ⟨k₀, h3, rfl⟩, (eraseMark_strip m h0 k₀).symm, hv⟩
    have hmeans : ∀ l', Means (r.addSymbol m) l' w ↔ ∃ l, Means g l w ∧ l' = eraseMark m l := by
      intro l'
      rw [means_iff]
      constructor
      · rintro ⟨k, hk, hf⟩
        obtain ⟨k₀, h3, rfl⟩ := (hcost k).mp hk
        obtain ⟨l, h4, rfl⟩ := (forall₂_eraseMark hin h0 h1 h2 (d.usual.cost_paired h3)).mp
          (forall₂_congr hsame hf)
        exact ⟨l, means_iff.mpr ⟨k₀, h3, h4⟩, rfl⟩
      · rintro ⟨l, hl, rfl⟩
        obtain ⟨k₀, h3, h4⟩ := means_iff.mp hl
        exact ⟨eraseMark m k₀, (hcost _).mpr ⟨k₀, h3, rfl⟩, forall₂_congr (fun x => (hsame x).symm)
          ((forall₂_eraseMark hin h0 h1 h2 (d.usual.cost_paired h3)).mpr ⟨l, h4, rfl⟩)⟩
    simp only [← d.means]
    constructor
    · rintro ⟨h3, h4⟩
      obtain ⟨l, h5, rfl⟩ := (hmeans l').mp ((me' l' w).mpr ⟨h3, h4 m hm hmr⟩)
      refine ⟨l, ⟨h5, fun x hx hn => ?_⟩, rfl⟩
      exact (avoids_eraseMark (hms x hx).2.1 fun e => hn (e ▸ hin)).mp (h4 x hx fun h => hn ((hal x).mp h).1)
    · rintro ⟨l, ⟨h5, h6⟩, rfl⟩
      refine ⟨((me' _ w).mp ((hmeans _).mpr ⟨l, h5, rfl⟩)).1, fun x hx hn => ?_⟩
      by_cases hxm : x = m
      · rw [hxm]; exact eraseMark_avoids h0 l
      · exact (avoids_eraseMark (hms x hx).2.1 hxm).mpr (h6 x hx fun h => hn ((hal x).mpr ⟨h, hxm⟩))
  · refine ⟨g, ?_, hin, d.congr fun l w => ?_⟩
    · unfold Graph.substitute
      have hv : (!isValidSymbol m || !isValidSymbol epsilon) = false := by
        have : isValidSymbol m = true := by
          unfold isValidSymbol
          simpa using hne
        rw [this]
        decide
      rw [if_neg (by rw [hv]; simp), if_neg h0, if_pos hin]
    · have hid : ∀ l, L l w → eraseMark m l = l := by
        intro l hl
        obtain ⟨h3, h4⟩ := (d.means l w).mpr hl
        exact eraseMark_id (h4 m hm hin) (means_strip h3)
      constructor
      · intro h
        exact ⟨l, h, (hid l h).symm⟩
      · rintro ⟨l₀, h, rfl⟩
        rw [hid l₀ h]
        exact h

end Hfst.Trans
