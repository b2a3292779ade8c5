import Verif.Lemmas.SfstHop
import Verif.Lemmas.SfstDet

/-!
# The loop of Hopcroft's algorithm

When the loop ends, two states are in the same group exactly if the same is accepted from them.
-/

namespace Hfst.Sfst

/-! ## Counting -/

theorem nodup_length_le {xs : List Nat} : ∀ {ys : List Nat}, xs.Nodup → (∀ x ∈ xs, x ∈ ys) → xs.length ≤ ys.length := by
  induction xs with
  | nil => exact fun _ _ => Nat.zero_le _
  | cons x xs ih =>
    intro ys hn hs
    obtain ⟨h1, h2⟩ := List.nodup_cons.1 hn
    have hx := hs x (List.mem_cons_self ..)
    have := ih (ys := ys.erase x) h2 (fun y hy =>
      (List.mem_erase_of_ne (show y ≠ x from fun e => h1 (e ▸ hy))).2 (hs y (List.mem_cons_of_mem _ hy)))
    rw [List.length_erase_of_mem hx] at this
    have := List.length_pos_of_mem hx
    simp only [List.length_cons]
    omega

theorem nodup_onto {xs ys : List Nat} (hn : xs.Nodup) (hs : ∀ x ∈ xs, x ∈ ys) (hl : ys.length ≤ xs.length) :
    ∀ y ∈ ys, y ∈ xs := by
  intro y hy
  refine Classical.byContradiction fun hno => ?_
  have := nodup_length_le (xs := y :: xs) (ys := ys) (List.nodup_cons.2 ⟨hno, hn⟩) (fun x hx => by
    rcases List.mem_cons.1 hx with rfl | hx
    · exact hy
    · exact hs x hx)
  simp only [List.length_cons] at this
  omega

/-- The first states of the groups. -/
def Hop.reps (H : Hop) : List Nat := H.groups.map (fun G => G.states.headD 0)

theorem HGood.reps_mem {V : List Nat} {H : Hop} (h : HGood V H) {i : Nat} {G : HGroup} (hG : H.groups[i]? = some G) :
    G.states.headD 0 ∈ G.states := by
  have := h.full i G hG
  cases hs : G.states with
  | nil => exact absurd hs this
  | cons x xs => exact List.mem_cons_self ..

theorem HGood.reps_nodup {V : List Nat} {H : Hop} (h : HGood V H) : H.reps.Nodup := by
  unfold Hop.reps List.Nodup
  rw [List.pairwise_iff_getElem]
  intro i j hi hj hij he
  rw [List.length_map] at hi hj
  rw [List.getElem_map, List.getElem_map] at he
  have h1 := h.only i _ _ (List.getElem?_eq_getElem hi) (h.reps_mem (List.getElem?_eq_getElem hi))
  have h2 := h.only j _ _ (List.getElem?_eq_getElem hj) (h.reps_mem (List.getElem?_eq_getElem hj))
  rw [he] at h1
  have := h1.2.symm.trans h2.2
  omega

theorem HGood.reps_sub {V : List Nat} {H : Hop} (h : HGood V H) : ∀ x ∈ H.reps, x ∈ V := by
  intro x hx
  obtain ⟨G, hG, rfl⟩ := List.mem_map.1 hx
  obtain ⟨i, hi, rfl⟩ := List.getElem_of_mem hG
  exact (h.only i _ _ (List.getElem?_eq_getElem hi) (h.reps_mem (List.getElem?_eq_getElem hi))).1

theorem HGood.few {V : List Nat} {H : Hop} (h : HGood V H) : H.groups.length ≤ V.length := by
  have := nodup_length_le h.reps_nodup h.reps_sub
  unfold Hop.reps at this
  rwa [List.length_map] at this

/-- As many groups as states: each state is alone. -/
theorem HGood.alone {V : List Nat} {H : Hop} (h : HGood V H) (hl : H.groups.length = V.length) :
    ∀ s ∈ V, ∀ t ∈ V, H.groupOf s = H.groupOf t → s = t := by
  have hon := nodup_onto h.reps_nodup h.reps_sub (by unfold Hop.reps; rw [List.length_map, hl]; exact Nat.le_refl _)
  have key : ∀ s ∈ V, ∃ G, H.groups[H.groupOf s]? = some G ∧ s = G.states.headD 0 := by
    intro s hs
    obtain ⟨G, hG, he⟩ := List.mem_map.1 (hon s hs)
    obtain ⟨i, hi, rfl⟩ := List.getElem_of_mem hG
    have hGi := List.getElem?_eq_getElem hi
    have := (h.only i _ _ hGi (h.reps_mem hGi)).2
    rw [he] at this
    exact ⟨H.groups[i], by rw [this]; exact hGi, he.symm⟩
  intro s hs t ht he
  obtain ⟨G, h1, h2⟩ := key s hs
  obtain ⟨G', h3, h4⟩ := key t ht
  rw [← he, h1] at h3
  cases h3
  rw [h2, h4]

/-! ## The transitions into a group -/

/-- The nodes to be grouped: a deterministic graph. -/
structure HNodes (g : Graph) (V : List Nat) : Prop where
  nodup : V.Nodup
  closed : ∀ n ∈ V, ∀ a ∈ (g.node n).arcs, a.2 ∈ V
  noeps : ∀ n ∈ V, ∀ a ∈ (g.node n).arcs, a.1 ≠ ⟨0, 0⟩
  labels : ∀ n ∈ V, ((g.node n).arcs.map (fun a => a.1)).Nodup

theorem HNodes.det {g : Graph} {V : List Nat} (h : HNodes g V) {n : Nat} (hn : n ∈ V) {l : Label} {m m' : Nat}
    (h1 : g.Step n l m) (h2 : g.Step n l m') : m = m' := by
  have hp : (g.node n).arcs.Pairwise (fun a b => a.1 ≠ b.1) := List.pairwise_map.1 (h.labels n hn)
  unfold Graph.Step at h1 h2
  generalize (g.node n).arcs = as at hp h1 h2
  induction as with
  | nil => cases h1
  | cons a as ih =>
    obtain ⟨h3, h4⟩ := List.pairwise_cons.1 hp
    rcases List.mem_cons.1 h1 with rfl | h1'
    · rcases List.mem_cons.1 h2 with h2' | h2'
      · cases h2'; rfl
      · exact absurd rfl (h3 (l, m') h2')
    · rcases List.mem_cons.1 h2 with rfl | h2'
      · exact absurd rfl (h3 (l, m) h1')
      · exact ih h4 h1' h2'

theorem HNodes.iter_nodup {g : Graph} {V : List Nat} (h : HNodes g V) {n : Nat} (hn : n ∈ V) :
    (g.node n).iter.Pairwise (fun a b => a ≠ b) := by
  have hp : (g.node n).arcs.Pairwise (fun a b => a ≠ b) :=
    (List.pairwise_map.1 (h.labels n hn)).imp (fun h e => h (congrArg Prod.fst e))
  unfold Node.iter Node.epsArcs Node.otherArcs
  refine List.pairwise_append.2 ⟨hp.filter _, hp.filter _, fun a ha b hb e => ?_⟩
  subst e
  have h1 := (List.mem_filter.1 ha).2
  have h2 := (List.mem_filter.1 hb).2
  rw [h1] at h2
  cases h2

theorem mem_ts {g : Graph} {V : List Nat} {s : Nat} {l : Label} {t : Nat} :
    (s, l, t) ∈ transitions g V ↔ s ∈ V ∧ g.Step s l t := by
  unfold transitions
  rw [List.mem_flatMap]
  constructor
  · rintro ⟨n, hn, h⟩
    obtain ⟨a, ha, he⟩ := List.mem_map.1 h
    cases he
    exact ⟨hn, mem_iter.1 ha⟩
  · rintro ⟨hs, h⟩
    exact ⟨s, hs, List.mem_map.2 ⟨(l, t), mem_iter.2 h, rfl⟩⟩

theorem mem_incoming {g : Graph} {V C : List Nat} {s : Nat} {l : Label} {t : Nat} :
    (s, l, t) ∈ incoming (transitions g V) C ↔ t ∈ C ∧ s ∈ V ∧ g.Step s l t := by
  unfold incoming
  rw [List.mem_flatMap]
  constructor
  · rintro ⟨n, hn, h⟩
    obtain ⟨h1, h2⟩ := List.mem_filter.1 (List.mem_reverse.1 h)
    have : t = n := by simpa using h2
    exact ⟨this ▸ hn, mem_ts.1 h1⟩
  · rintro ⟨h1, h2⟩
    exact ⟨t, h1, List.mem_reverse.2 (List.mem_filter.2 ⟨mem_ts.2 h2, by simp⟩)⟩

theorem mem_sources {g : Graph} {V C : List Nat} {l : Label} {s : Nat} :
    s ∈ sourcesFor (transitions g V) C l ↔ s ∈ V ∧ ∃ t ∈ C, g.Step s l t := by
  unfold sourcesFor
  rw [List.mem_map]
  constructor
  · rintro ⟨⟨s', l', t⟩, h, rfl⟩
    obtain ⟨h1, h2⟩ := List.mem_filter.1 (List.mem_reverse.1 h)
    have h3 : l' = l := by simpa using h2
    subst h3
    obtain ⟨h4, h5, h6⟩ := mem_incoming.1 h1
    exact ⟨h5, t, h4, h6⟩
  · rintro ⟨h1, t, h2, h3⟩
    exact ⟨(s, l, t), List.mem_reverse.2 (List.mem_filter.2 ⟨mem_incoming.2 ⟨h2, h1, h3⟩, by simp⟩), rfl⟩

theorem ts_nodup {g : Graph} {V : List Nat} (h : HNodes g V) : (transitions g V).Pairwise (fun a b => a ≠ b) := by
  unfold transitions
  rw [List.pairwise_flatMap]
  refine ⟨fun n hn => ?_, ?_⟩
  · rw [List.pairwise_map]
    exact (h.iter_nodup hn).imp (fun {a b} hne e => hne (by
      obtain ⟨a1, a2⟩ := a
      obtain ⟨b1, b2⟩ := b
      simp only [Prod.mk.injEq] at e
      rw [e.2.1, e.2.2]))
  · refine List.Pairwise.imp ?_ (show V.Pairwise (fun a b => a ≠ b) from h.nodup)
    intro a b hab x hx y hy e
    obtain ⟨u, _, rfl⟩ := List.mem_map.1 hx
    obtain ⟨v, _, rfl⟩ := List.mem_map.1 hy
    exact hab (congrArg Prod.fst e)

theorem sources_nodup {g : Graph} {V : List Nat} (h : HNodes g V) {C : List Nat} (hC : C.Nodup) (l : Label) :
    (sourcesFor (transitions g V) C l).Nodup := by
  have hin : (incoming (transitions g V) C).Pairwise (fun a b => a ≠ b) := by
    unfold incoming
    rw [List.pairwise_flatMap]
    refine ⟨fun n _ => ?_, ?_⟩
    · rw [List.pairwise_reverse]
      exact ((ts_nodup h).filter _).imp (fun h => h.symm)
    · refine List.Pairwise.imp ?_ (show C.Pairwise (fun a b => a ≠ b) from hC)
      intro a b hab x hx y hy e
      subst e
      have h1 := (List.mem_filter.1 (List.mem_reverse.1 hx)).2
      have h2 := (List.mem_filter.1 (List.mem_reverse.1 hy)).2
      simp only [decide_eq_true_eq] at h1 h2
      exact hab (h1.symm.trans h2)
  unfold sourcesFor List.Nodup
  rw [List.pairwise_map, List.pairwise_reverse]
  have hf := hin.filter (fun t => t.2.1 = l)
  refine List.Pairwise.imp_of_mem ?_ hf
  intro a b ha hb hab he
  obtain ⟨s, la, t⟩ := a
  obtain ⟨s', lb, t'⟩ := b
  obtain ⟨ha1, ha2⟩ := List.mem_filter.1 ha
  obtain ⟨hb1, hb2⟩ := List.mem_filter.1 hb
  simp only [decide_eq_true_eq] at ha2 hb2 he
  subst ha2
  subst hb2
  subst he
  obtain ⟨_, h1, h2⟩ := mem_incoming.1 ha1
  obtain ⟨_, _, h3⟩ := mem_incoming.1 hb1
  exact hab (by rw [h.det h1 h2 h3])

theorem mem_insertLabel {l m : Label} {ls : List Label} : m ∈ insertLabel l ls ↔ m = l ∨ m ∈ ls := by
  induction ls with
  | nil => simp [insertLabel]
  | cons x xs ih =>
    unfold insertLabel
    split
    · next he =>
      subst he
      constructor
      · exact .inr
      · rintro (rfl | h)
        · exact List.mem_cons_self ..
        · exact h
    · split
      · simp only [List.mem_cons]
      · rw [List.mem_cons, ih, List.mem_cons]
        constructor
        · rintro (h | h | h)
          · exact .inr (.inl h)
          · exact .inl h
          · exact .inr (.inr h)
        · rintro (h | h | h)
          · exact .inr (.inl h)
          · exact .inl h
          · exact .inr (.inr h)

theorem mem_incomingLabels {ts : List (Nat × Label × Nat)} {C : List Nat} {l : Label} :
    l ∈ incomingLabels ts C ↔ ∃ t ∈ incoming ts C, t.2.1 = l := by
  unfold incomingLabels
  generalize incoming ts C = is
  have : ∀ (is : List (Nat × Label × Nat)) (acc : List Label),
      l ∈ is.foldl (fun ls t => insertLabel t.2.1 ls) acc ↔ l ∈ acc ∨ ∃ t ∈ is, t.2.1 = l := by
    intro is
    induction is with
    | nil => intro acc; simp
    | cons x xs ih =>
      intro acc
      rw [List.foldl_cons, ih, mem_insertLabel]
      constructor
      · rintro ((h | h) | ⟨t, ht, he⟩)
        · exact .inr ⟨x, List.mem_cons_self .., h.symm⟩
        · exact .inl h
        · exact .inr ⟨t, List.mem_cons_of_mem _ ht, he⟩
      · rintro (h | ⟨t, ht, he⟩)
        · exact .inl (.inr h)
        · rcases List.mem_cons.1 ht with rfl | ht
          · exact .inl (.inl he.symm)
          · exact .inr ⟨t, ht, he⟩
  rw [this]
  constructor
  · rintro (h | h)
    · cases h
    · exact h
  · exact .inr

/-! ## What is kept through the loop -/

/-- States related by `ρ` both have or both have not an arc labelled `l` into `A`. -/
def Stable (g : Graph) (ρ : Nat → Nat → Prop) (A : Nat → Prop) (l : Label) : Prop :=
  ∀ p q, ρ p q → ((∃ m, g.Step p l m ∧ A m) ↔ ∃ m, g.Step q l m ∧ A m)

/-- A group as a set. -/
def Hop.block (V : List Nat) (H : Hop) (i : Nat) (s : Nat) : Prop := s ∈ V ∧ H.groupOf s = i

/-- A relation that is at least as fine as the groups and stable for what is still to be done is stable
for all groups. -/
def HInv (g : Graph) (V : List Nat) (H : Hop) (C : Nat → Prop) (L : Label → Prop) : Prop :=
  ∀ ρ : Nat → Nat → Prop, (∀ p q, ρ p q → p ∈ V ∧ q ∈ V ∧ H.groupOf p = H.groupOf q) →
    (∀ i, OnAgenda i H.agenda → ∀ l, Stable g ρ (H.block V i) l) → (∀ l, L l → Stable g ρ C l) →
    ∀ i l, Stable g ρ (H.block V i) l

theorem hinv_process {g : Graph} {V : List Nat} (hV : HNodes g V) {H : Hop} (hH : HGood V H) {C : List Nat}
    (hCn : C.Nodup) {L : Label → Prop} (h : HInv g V H (fun s => s ∈ C) L) (l : Label) :
    HInv g V (H.process (sourcesFor (transitions g V) C l)) (fun s => s ∈ C) (fun l' => L l' ∧ l' ≠ l) := by
  obtain ⟨_, hf, hsep⟩ := process_ok hH (S := sourcesFor (transitions g V) C l)
    (fun s hs => (mem_sources.1 hs).1) (sources_nodup hV hCn l)
  generalize hH' : H.process (sourcesFor (transitions g V) C l) = H' at hf hsep
  intro ρ hρ hag hL
  have hall : ∀ i l, Stable g ρ (H.block V i) l := by
    refine h ρ (fun p q hpq => ?_) (fun i hi l' => ?_) (fun l' hl' => ?_)
    · obtain ⟨h1, h2, h3⟩ := hρ p q hpq
      exact ⟨h1, h2, hf.fine p h1 q h2 h3⟩
    · have key : ∀ p q, (∀ j, OnAgenda j H'.agenda → (∃ m, g.Step p l' m ∧ H'.block V j m) →
          ∃ m, g.Step q l' m ∧ H'.block V j m) → (∃ m, g.Step p l' m ∧ H.block V i m) →
          ∃ m, g.Step q l' m ∧ H.block V i m := by
        rintro p q hst ⟨m, hs, hm1, hm2⟩
        obtain ⟨m', hs', h1, h2⟩ := hst (H'.groupOf m) (hf.stay m hm1 (by rw [hm2]; exact hi)) ⟨m, hs, hm1, rfl⟩
        exact ⟨m', hs', h1, (hf.fine m' h1 m hm1 h2).trans hm2⟩
      intro p q hpq
      exact ⟨key p q (fun j hj => (hag j hj l' p q hpq).1), key q p (fun j hj => (hag j hj l' p q hpq).2)⟩
    · by_cases he : l' = l
      · subst he
        intro p q hpq
        obtain ⟨h1, h2, h3⟩ := hρ p q hpq
        have hs := hsep p h1 q h2 h3
        rw [mem_sources, mem_sources] at hs
        have conv : ∀ p ∈ V, (∃ m, g.Step p l' m ∧ m ∈ C) ↔ (p ∈ V ∧ ∃ t ∈ C, g.Step p l' t) := fun p hp =>
          ⟨fun ⟨m, a, b⟩ => ⟨hp, m, b, a⟩, fun ⟨_, m, b, a⟩ => ⟨m, a, b⟩⟩
        rw [conv p h1, conv q h2]
        exact hs
      · exact hL l' ⟨hl', he⟩
  intro j l'
  have key : ∀ p ∈ V, ∀ q ∈ V,
      (∀ i, (∃ m, g.Step p l' m ∧ H.block V i m) → ∃ m, g.Step q l' m ∧ H.block V i m) →
      (∀ i, OnAgenda i H'.agenda → ((∃ m, g.Step p l' m ∧ H'.block V i m) ↔ ∃ m, g.Step q l' m ∧ H'.block V i m)) →
      (∃ m, g.Step p l' m ∧ H'.block V j m) → ∃ m, g.Step q l' m ∧ H'.block V j m := by
    rintro p hp q hq hold hnew ⟨m, hs, hm1, hm2⟩
    obtain ⟨m', hs', h1, h2⟩ := hold (H.groupOf m) ⟨m, hs, hm1, rfl⟩
    by_cases he : H'.groupOf m = H'.groupOf m'
    · exact ⟨m', hs', h1, he.symm.trans hm2⟩
    · rcases hf.half m hm1 m' h1 h2.symm he with ho | ho
      · rw [hm2] at ho
        exact (hnew j ho).1 ⟨m, hs, hm1, hm2⟩
      · obtain ⟨m'', hs'', h3, h4⟩ := (hnew _ ho).2 ⟨m', hs', h1, rfl⟩
        rw [hV.det hp hs'' hs] at h4
        exact absurd h4 he
  intro p q hpq
  obtain ⟨h1, h2, _⟩ := hρ p q hpq
  exact ⟨key p h1 q h2 (fun i => (hall i l' p q hpq).1) (fun i hi => hag i hi l' p q hpq),
    key q h2 p h1 (fun i => (hall i l' p q hpq).2) (fun i hi => (hag i hi l' p q hpq).symm)⟩

/-- The same is accepted from two nodes. -/
def Same (g : Graph) (p q : Nat) : Prop := ∀ w, g.Takes p w ↔ g.Takes q w

/-- What the loop keeps. -/
structure HKeeps (g : Graph) (V : List Nat) (H : Hop) : Prop where
  good : HGood V H
  finals : ∀ p ∈ V, ∀ q ∈ V, H.groupOf p = H.groupOf q → (g.node p).final = (g.node q).final
  coarse : ∀ p ∈ V, ∀ q ∈ V, Same g p q → H.groupOf p = H.groupOf q

theorem takes_noeps {g : Graph} {n : Nat} {w : List Label} (hn : ∀ a ∈ (g.node n).arcs, a.1 ≠ ⟨0, 0⟩) :
    g.Takes n w ↔ (w = [] ∧ (g.node n).final = true) ∨ ∃ l v m, w = l :: v ∧ g.Step n l m ∧ g.Takes m v := by
  constructor
  · intro h
    cases h with
    | stop hf => exact .inl ⟨rfl, hf⟩
    | skip hs _ => exact absurd rfl (hn _ hs)
    | read hl hs h => exact .inr ⟨_, _, _, rfl, hs, h⟩
  · rintro (⟨rfl, hf⟩ | ⟨l, v, m, rfl, hs, h⟩)
    · exact .stop hf
    · exact .read (hn _ hs) hs h

/-- From states that accept the same, an arc leads to states that accept the same, if something is
accepted there. -/
theorem same_step {g : Graph} {V : List Nat} (hV : HNodes g V) {p q : Nat} (hp : p ∈ V) (hq : q ∈ V)
    (h : Same g p q) {l : Label} {m : Nat} (hs : g.Step p l m) (ha : ∃ w, g.Takes m w) :
    ∃ m', g.Step q l m' ∧ Same g m m' := by
  have hread : ∀ {n : Nat} (hn : n ∈ V) {m : Nat}, g.Step n l m → ∀ v, g.Takes n (l :: v) ↔ g.Takes m v := by
    intro n hn m hs v
    rw [takes_noeps (hV.noeps n hn)]
    constructor
    · rintro (⟨h, _⟩ | ⟨l', v', m', he, hs', h⟩)
      · cases h
      · cases he
        rwa [hV.det hn hs hs']
    · intro h
      exact .inr ⟨l, v, m, rfl, hs, h⟩
  obtain ⟨w, hw⟩ := ha
  have h1 := (h (l :: w)).1 ((hread hp hs w).2 hw)
  rw [takes_noeps (hV.noeps q hq)] at h1
  rcases h1 with ⟨h, _⟩ | ⟨l', v', m', he, hs', _⟩
  · cases h
  · cases he
    exact ⟨m', hs', fun v => by rw [← hread hp hs, ← hread hq hs', h]⟩

theorem hkeeps_process {g : Graph} {V : List Nat} (hV : HNodes g V) (ha : ∀ n ∈ V, ∃ w, g.Takes n w)
    {H : Hop} (h : HKeeps g V H) {C : List Nat}
    (hCn : C.Nodup) (hCV : ∀ s ∈ C, s ∈ V) (hCs : ∀ p ∈ V, ∀ q ∈ V, Same g p q → p ∈ C → q ∈ C) (l : Label) :
    HKeeps g V (H.process (sourcesFor (transitions g V) C l)) ∧
      H.groups.length ≤ (H.process (sourcesFor (transitions g V) C l)).groups.length ∧
      (H.process (sourcesFor (transitions g V) C l)).agenda.length + H.groups.length ≤
        H.agenda.length + (H.process (sourcesFor (transitions g V) C l)).groups.length := by
  obtain ⟨hg, hf, hsep⟩ := process_ok h.good (S := sourcesFor (transitions g V) C l)
    (fun s hs => (mem_sources.1 hs).1) (sources_nodup hV hCn l)
  refine ⟨⟨hg, fun p hp q hq he => h.finals p hp q hq (hf.fine p hp q hq he), fun p hp q hq hpq => ?_⟩, hf.grow, hf.len⟩
  have key : ∀ p ∈ V, ∀ q ∈ V, Same g p q → p ∈ sourcesFor (transitions g V) C l →
      q ∈ sourcesFor (transitions g V) C l := by
    intro p hp q hq hpq hs
    obtain ⟨_, t, ht, hst⟩ := mem_sources.1 hs
    obtain ⟨t', hst', hsame⟩ := same_step hV hp hq hpq hst (ha t (hCV t ht))
    exact mem_sources.2 ⟨hq, t', hCs t (hCV t ht) t' (hV.closed q hq _ hst') hsame ht, hst'⟩
  exact hf.coarse p hp q hq (h.coarse p hp q hq hpq)
    ⟨key p hp q hq hpq, key q hq p hp (fun w => (hpq w).symm)⟩

/-- All labels of one group. -/
theorem process_labels {g : Graph} {V : List Nat} (hV : HNodes g V) (ha : ∀ n ∈ V, ∃ w, g.Takes n w)
    {C : List Nat} (hCn : C.Nodup) (hCV : ∀ s ∈ C, s ∈ V)
    (hCs : ∀ p ∈ V, ∀ q ∈ V, Same g p q → p ∈ C → q ∈ C) (ls : List Label) :
    ∀ {H : Hop} {L : Label → Prop}, HKeeps g V H → HInv g V H (fun s => s ∈ C) L →
      HKeeps g V (ls.foldl (fun H l => H.process (sourcesFor (transitions g V) C l)) H) ∧
      HInv g V (ls.foldl (fun H l => H.process (sourcesFor (transitions g V) C l)) H) (fun s => s ∈ C)
        (fun l => L l ∧ l ∉ ls) ∧
      H.groups.length ≤ (ls.foldl (fun H l => H.process (sourcesFor (transitions g V) C l)) H).groups.length ∧
      (ls.foldl (fun H l => H.process (sourcesFor (transitions g V) C l)) H).agenda.length + H.groups.length ≤
        H.agenda.length + (ls.foldl (fun H l => H.process (sourcesFor (transitions g V) C l)) H).groups.length := by
  induction ls with
  | nil =>
    intro H L hk hi
    exact ⟨hk, fun ρ h1 h2 h3 => hi ρ h1 h2 (fun l hl => h3 l ⟨hl, fun h => by cases h⟩), Nat.le_refl _, Nat.le_refl _⟩
  | cons l ls ih =>
    intro H L hk hi
    obtain ⟨h1, h2, h3⟩ := hkeeps_process hV ha hk hCn hCV hCs l
    obtain ⟨h4, h5, h6, h7⟩ := ih h1 (hinv_process hV hk.good hCn hi l)
    refine ⟨h4, fun ρ e1 e2 e3 => h5 ρ e1 e2 (fun l' hl' => e3 l' ⟨hl'.1.1, fun hm => ?_⟩), ?_, ?_⟩
    · rcases List.mem_cons.1 hm with h | h
      · exact hl'.1.2 h
      · exact hl'.2 h
    · exact Nat.le_trans h2 h6
    · simp only [List.foldl_cons]
      omega

/-- Stable groups hold states that accept the same. -/
theorem same_of_stable {g : Graph} {V : List Nat} (hV : HNodes g V) {H : Hop} (h : HKeeps g V H)
    (hst : ∀ i l, Stable g (fun p q => p ∈ V ∧ q ∈ V ∧ H.groupOf p = H.groupOf q) (H.block V i) l) :
    ∀ p ∈ V, ∀ q ∈ V, H.groupOf p = H.groupOf q → Same g p q := by
  have key : ∀ w, ∀ p ∈ V, ∀ q ∈ V, H.groupOf p = H.groupOf q → g.Takes p w → g.Takes q w := by
    intro w
    induction w with
    | nil =>
      intro p hp q hq he ht
      rw [takes_noeps (hV.noeps p hp)] at ht
      rw [takes_noeps (hV.noeps q hq)]
      rcases ht with ⟨_, hf⟩ | ⟨l, v, m, h', _⟩
      · exact .inl ⟨rfl, (h.finals p hp q hq he).symm.trans hf⟩
      · cases h'
    | cons l v ih =>
      intro p hp q hq he ht
      rw [takes_noeps (hV.noeps p hp)] at ht
      rw [takes_noeps (hV.noeps q hq)]
      rcases ht with ⟨h', _⟩ | ⟨l', v', m, h', hs, ht⟩
      · cases h'
      · cases h'
        have hmV := hV.closed p hp _ hs
        obtain ⟨m', hs', h1, h2⟩ := (hst (H.groupOf m) l p q ⟨hp, hq, he⟩).1 ⟨m, hs, hmV, rfl⟩
        exact .inr ⟨l, v, m', rfl, hs', ih m hmV m' h1 h2.symm ht⟩
  exact fun p hp q hq he w => ⟨key w p hp q hq he, key w q hq p hp he.symm⟩

/-- **The loop ends, and then two states are in the same group exactly if they accept the same.** -/
theorem hopLoop_ok {g : Graph} {V : List Nat} (hV : HNodes g V) (ha : ∀ n ∈ V, ∃ w, g.Takes n w) (f : Nat) :
    ∀ {H : Hop}, HKeeps g V H → HInv g V H (fun _ => False) (fun _ => False) →
      H.agenda.length + V.length < f + H.groups.length →
      ∃ H', hopLoop (transitions g V) V.length f H = some H' ∧ HGood V H' ∧
        ∀ p ∈ V, ∀ q ∈ V, (H'.groupOf p = H'.groupOf q ↔ Same g p q) := by
  induction f with
  | zero =>
    intro H hk _ hf
    have := hk.good.few
    omega
  | succ f ih =>
    intro H hk hi hf
    unfold hopLoop
    cases hag : H.agenda with
    | nil =>
      refine ⟨H, rfl, hk.good, fun p hp q hq => ⟨?_, hk.coarse p hp q hq⟩⟩
      refine same_of_stable hV hk (hi _ (fun p q h => h) (fun i hi' => ?_) (fun l h => h.elim)) p hp q hq
      rw [hag] at hi'
      obtain ⟨e, he, _⟩ := hi'
      cases he
    | cons e rest =>
      dsimp only
      have hCblock : ∀ s, s ∈ (H.groups[e.2]?.map (fun G => G.states)).getD [] ↔ H.block V e.2 s := by
        intro s
        cases hG : H.groups[e.2]? with
        | none =>
          constructor
          · intro h; cases h
          · rintro ⟨h1, h2⟩
            obtain ⟨G, h3, _⟩ := hk.good.mem s h1
            rw [h2, hG] at h3
            cases h3
        | some G =>
          constructor
          · intro h
            exact hk.good.only e.2 G s hG h
          · rintro ⟨h1, h2⟩
            obtain ⟨G', h3, h4⟩ := hk.good.mem s h1
            rw [h2, hG] at h3
            cases h3
            exact h4
      have hCn : ((H.groups[e.2]?.map (fun G => G.states)).getD []).Nodup := by
        cases hG : H.groups[e.2]? with
        | none => exact List.nodup_nil
        | some G => exact hk.good.nodup e.2 G hG
      generalize (H.groups[e.2]?.map (fun G => G.states)).getD [] = C at hCblock hCn
      have hk1 : HKeeps g V { H with agenda := rest } :=
        ⟨⟨hk.good.fresh, hk.good.full, hk.good.nodup, hk.good.mem, hk.good.only⟩, hk.finals, hk.coarse⟩
      have hi1 : HInv g V { H with agenda := rest } (fun s => s ∈ C) (fun _ => True) := by
        intro ρ h1 h2 h3
        refine hi ρ h1 (fun i hi' l => ?_) (fun l h => h.elim)
        rw [hag] at hi'
        obtain ⟨e', he', rfl⟩ := hi'
        rcases List.mem_cons.1 he' with rfl | he'
        · have := h3 l trivial
          intro p q hpq
          have h4 := this p q hpq
          have conv : ∀ p, (∃ m, g.Step p l m ∧ m ∈ C) ↔ (∃ m, g.Step p l m ∧ H.block V e'.2 m) := fun p =>
            exists_congr fun m => and_congr_right fun _ => hCblock m
          rwa [conv p, conv q] at h4
        · exact h2 e'.2 ⟨e', he', rfl⟩ l
      obtain ⟨hk2, hi2, hgr, hlen⟩ := process_labels hV ha hCn (fun s hs => ((hCblock s).1 hs).1)
        (fun p hp q hq hpq hpC => (hCblock q).2 ⟨hq, by
          rw [← hk.coarse p hp q hq hpq]; exact ((hCblock p).1 hpC).2⟩)
        (incomingLabels (transitions g V) C) hk1 hi1
      have hi3 : HInv g V ((incomingLabels (transitions g V) C).foldl
          (fun H l => H.process (sourcesFor (transitions g V) C l)) { H with agenda := rest })
          (fun _ => False) (fun _ => False) := by
        intro ρ h1 h2 _
        refine hi2 ρ h1 h2 (fun l hl p q hpq => ?_)
        obtain ⟨hp, hq, _⟩ := h1 p q hpq
        have hno : ∀ p ∈ V, ¬ ∃ m, g.Step p l m ∧ m ∈ C := by
          rintro p hp ⟨m, hs, hm⟩
          exact hl.2 (mem_incomingLabels.2 ⟨(p, l, m), mem_incoming.2 ⟨hm, hp, hs⟩, rfl⟩)
        exact ⟨fun h => absurd h (hno p hp), fun h => absurd h (hno q hq)⟩
      split
      · next hN =>
        refine ⟨_, rfl, hk2.good, fun p hp q hq => ⟨fun he => ?_, hk2.coarse p hp q hq⟩⟩
        rw [hk2.good.alone hN p hp q hq he]
        exact fun w => Iff.rfl
      · refine ih hk2 hi3 ?_
        rw [hag] at hf
        simp only [List.length_cons] at hf
        have e1 : ({ H with agenda := rest } : Hop).agenda = rest := rfl
        have e2 : ({ H with agenda := rest } : Hop).groups = H.groups := rfl
        rw [e1, e2] at hlen
        omega

end Hfst.Sfst
