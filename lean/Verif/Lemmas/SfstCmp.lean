import Verif.Model.SfstCmp
import Verif.Props.SfstMin

/-!
# Comparing nodes
-/

namespace Hfst.Sfst

/-- The same is accepted from a node of one transducer and a node of another. -/
def Alike (g1 g2 : Graph) (n m : Nat) : Prop := ∀ w, g1.Takes n w ↔ g2.Takes m w

theorem alike_final {g1 g2 : Graph} {n m : Nat} (h1 : ∀ a ∈ (g1.node n).arcs, a.1 ≠ ⟨0, 0⟩)
    (h2 : ∀ a ∈ (g2.node m).arcs, a.1 ≠ ⟨0, 0⟩) (h : Alike g1 g2 n m) :
    (g1.node n).final = (g2.node m).final := by
  have h := h []
  rw [takes_noeps h1, takes_noeps h2] at h
  have h' : (g1.node n).final = true ↔ (g2.node m).final = true := by
    constructor
    · intro hf
      rcases h.1 (.inl ⟨rfl, hf⟩) with h | ⟨_, _, _, h, _⟩
      · exact h.2
      · cases h
    · intro hf
      rcases h.2 (.inl ⟨rfl, hf⟩) with h | ⟨_, _, _, h, _⟩
      · exact h.2
      · cases h
  cases hp : (g1.node n).final <;> cases hq : (g2.node m).final <;> simp [hp, hq] at h' ⊢

theorem step_unique {g : Graph} {n : Nat} (h : ((g.node n).arcs.map (fun a => a.1)).Nodup) {l : Label} {m m' : Nat}
    (hs : g.Step n l m) (hs' : g.Step n l m') : m = m' := by
  have hp := List.pairwise_map.1 h
  unfold Graph.Step at hs hs'
  generalize (g.node n).arcs = as at hp hs hs'
  induction as with
  | nil => cases hs
  | cons a as iha =>
    obtain ⟨h3, h4⟩ := List.pairwise_cons.1 hp
    rcases List.mem_cons.1 hs with rfl | h1'
    · rcases List.mem_cons.1 hs' with h2' | h2'
      · cases h2'; rfl
      · exact absurd rfl (h3 (l, m') h2')
    · rcases List.mem_cons.1 hs' with rfl | h2'
      · exact absurd rfl (h3 (l, m) h1')
      · exact iha h4 h1' h2'

/-- In a deterministic transducer the arc decides what follows. -/
theorem takes_arc {g : Graph} {n : Nat} (hn : ∀ a ∈ (g.node n).arcs, a.1 ≠ ⟨0, 0⟩)
    (hd : ((g.node n).arcs.map (fun a => a.1)).Nodup) {l : Label} {m : Nat} (hs : g.Step n l m) (v : List Label) :
    g.Takes n (l :: v) ↔ g.Takes m v := by
  rw [takes_noeps hn]
  constructor
  · rintro (⟨h, _⟩ | ⟨l', v', m', he, hs', h⟩)
    · cases h
    · cases he
      rw [step_unique hd hs hs']
      exact h
  · exact fun h => .inr ⟨l, v, m, rfl, hs, h⟩

theorem alike_step {g1 g2 : Graph} (d1 : g1.Deterministic) (d2 : g2.Deterministic) {n m : Nat}
    (r1 : g1.Reach 0 n) (r2 : g2.Reach 0 m) (h : Alike g1 g2 n m) {l : Label} {t : Nat} (hs : g1.Step n l t)
    (ht : ∃ w, g1.Takes t w) : ∃ t', g2.Step m l t' ∧ Alike g1 g2 t t' := by
  obtain ⟨w, hw⟩ := ht
  have h1 := (h (l :: w)).1 ((takes_arc (d1 n r1).1 (d1 n r1).2 hs w).2 hw)
  rcases (takes_noeps (d2 m r2).1).1 h1 with ⟨h, _⟩ | ⟨l', v', t', he, hs', _⟩
  · cases h
  · cases he
    refine ⟨t', hs', fun w => ?_⟩
    rw [← takes_arc (d1 n r1).1 (d1 n r1).2 hs w, ← takes_arc (d2 m r2).1 (d2 m r2).2 hs' w]
    exact h _

theorem Alike.symm {g1 g2 : Graph} {n m : Nat} (h : Alike g1 g2 n m) : Alike g2 g1 m n := fun w => (h w).symm

/-! ## It ends -/

def Matching.Ext (s s' : Matching) : Prop :=
  (∀ k m, s.1 k = some m → s'.1 k = some m) ∧ ∀ k m, s.2 k = some m → s'.2 k = some m

theorem Matching.Ext.refl (s : Matching) : s.Ext s := ⟨fun _ _ h => h, fun _ _ h => h⟩

theorem Matching.Ext.trans {s s' s'' : Matching} (h : s.Ext s') (h' : s'.Ext s'') : s.Ext s'' :=
  ⟨fun k m hk => h'.1 k m (h.1 k m hk), fun k m hk => h'.2 k m (h.2 k m hk)⟩

/-- How many nodes of the first transducer have no partner. -/
def Matching.left (g : Graph) (s : Matching) : Nat := waiting (List.range g.size) ⟨g, s.1⟩

theorem Matching.left_le {g : Graph} {s s' : Matching} (h : s.Ext s') : s'.left g ≤ s.left g :=
  waiting_le (b := ⟨g, s.1⟩) (b' := ⟨g, s'.1⟩) h.1

theorem assign_ext {s : Matching} {n m : Nat} (hn : s.1 n = none) (hm : s.2 m = none) :
    s.Ext (assign s.1 n m, assign s.2 m n) := by
  refine ⟨fun k j hk => ?_, fun k j hk => ?_⟩
  · show (if k = n then _ else _) = _
    rw [if_neg (fun e : k = n => by rw [e, hn] at hk; cases hk)]
    exact hk
  · show (if k = m then _ else _) = _
    rw [if_neg (fun e : k = m => by rw [e, hm] at hk; cases hk)]
    exact hk

theorem assign_left {g : Graph} {s : Matching} {n m : Nat} (hlt : n < g.size) (hn : s.1 n = none)
    (hm : s.2 m = none) : Matching.left g (assign s.1 n m, assign s.2 m n) < s.left g :=
  waiting_lt (b := ⟨g, s.1⟩) (b' := ⟨g, assign s.1 n m⟩) (List.mem_range.2 hlt) (assign_ext hn hm).1 hn (by
    show (if n = n then _ else _) ≠ none
    rw [if_pos rfl]
    exact fun h => by cases h)

theorem compareArcs_total {g : Graph} {again : Nat → Nat → Matching → Option (Bool × Matching)} {f : Nat}
    (ih : ∀ (n m : Nat) (s : Matching), n < g.size → s.left g < f → ∃ r, again n m s = some r ∧ s.Ext r.2)
    (nd2 : Node) : ∀ (as : List (Label × Nat)) (s : Matching), (∀ a ∈ as, a.2 < g.size) → s.left g < f →
      ∃ r, compareArcs again nd2 as s = some r ∧ s.Ext r.2 := by
  intro as
  induction as with
  | nil => exact fun s _ _ => ⟨_, rfl, .refl s⟩
  | cons a as iha =>
    intro s ha hf
    unfold compareArcs
    cases ht : nd2.target a.1 with
    | none => exact ⟨_, rfl, .refl s⟩
    | some t2 =>
      obtain ⟨⟨b, s1⟩, h1, h2⟩ := ih a.2 t2 s (ha a (List.mem_cons_self ..)) hf
      dsimp only
      rw [h1]
      show ∃ r, (if b = true then _ else _) = some r ∧ _
      by_cases hb : b = true
      · rw [if_pos hb]
        obtain ⟨r, h3, h4⟩ := iha s1 (fun x hx => ha x (List.mem_cons_of_mem _ hx))
          (Nat.lt_of_le_of_lt (Matching.left_le h2) hf)
        exact ⟨r, h3, h2.trans h4⟩
      · rw [if_neg hb]
        exact ⟨_, rfl, h2⟩

theorem compareNodes_total {g1 : Graph} (hc : g1.Closed) (g2 : Graph) (f : Nat) :
    ∀ (n m : Nat) (s : Matching), n < g1.size → s.left g1 < f →
      ∃ r, compareNodes g1 g2 f n m s = some r ∧ s.Ext r.2 := by
  induction f with
  | zero => exact fun _ _ _ _ h => absurd h (Nat.not_lt_zero _)
  | succ f ih =>
    intro n m s hn hf
    unfold compareNodes
    cases h1 : s.1 n with
    | some m' =>
      cases h2 : s.2 m with
      | some n' => exact ⟨_, rfl, .refl s⟩
      | none => exact ⟨_, rfl, .refl s⟩
    | none =>
      cases h2 : s.2 m with
      | some n' => exact ⟨_, rfl, .refl s⟩
      | none =>
        dsimp only
        have he := assign_ext h1 h2
        split
        · exact ⟨_, rfl, he⟩
        · obtain ⟨⟨b, s1⟩, h3, h4⟩ := compareArcs_total ih (g2.node m) (g1.node n).iter
            (assign s.1 n m, assign s.2 m n) (fun a ha => hc.2 n hn a (mem_iter.1 ha))
            (Nat.lt_of_lt_of_le (assign_left hn h1 h2) (Nat.le_of_lt_succ hf))
          rw [h3]
          show ∃ r, (if b = true then _ else _) = some r ∧ _
          split
          · exact ⟨_, rfl, he.trans h4⟩
          · exact ⟨_, rfl, he.trans h4⟩

/-! ## If it says yes -/

def Matching.Both (s : Matching) : Prop := ∀ n m, s.1 n = some m ↔ s.2 m = some n

theorem assign_both {s : Matching} (hs : s.Both) {n m : Nat} (hn : s.1 n = none) (hm : s.2 m = none) :
    Matching.Both (assign s.1 n m, assign s.2 m n) := by
  intro k j
  show (if k = n then some m else s.1 k) = some j ↔ (if j = m then some n else s.2 j) = some k
  by_cases hk : k = n
  · subst hk
    rw [if_pos rfl]
    by_cases hj : j = m
    · subst hj
      rw [if_pos rfl]
      simp
    · rw [if_neg hj]
      constructor
      · intro h; exact absurd (Option.some.inj h).symm hj
      · intro h
        rw [(hs k j).2 h] at hn
        cases hn
  · rw [if_neg hk]
    by_cases hj : j = m
    · subst hj
      rw [if_pos rfl]
      constructor
      · intro h
        rw [(hs k j).1 h] at hm
        cases hm
      · intro h; exact absurd (Option.some.inj h).symm hk
    · rw [if_neg hj]
      exact hs k j

/-- Two partners agree, and so do the nodes that follow. -/
structure Agree (g1 g2 : Graph) (s : Matching) (n m : Nat) : Prop where
  final : (g1.node n).final = (g2.node m).final
  there : ∀ l t, g1.Step n l t → ∃ t', g2.Step m l t' ∧ s.1 t = some t'
  back : ∀ l t', g2.Step m l t' → ∃ t, g1.Step n l t

theorem Agree.mono {g1 g2 : Graph} {s s' : Matching} {n m : Nat} (h : Agree g1 g2 s n m) (he : s.Ext s') :
    Agree g1 g2 s' n m :=
  ⟨h.final, fun l t hs => by obtain ⟨t', h1, h2⟩ := h.there l t hs; exact ⟨t', h1, he.1 _ _ h2⟩, h.back⟩

structure Grown (g1 g2 : Graph) (s s' : Matching) : Prop where
  ext : s.Ext s'
  both : s'.Both
  agree : ∀ k j, s'.1 k = some j → s.1 k = none → Agree g1 g2 s' k j

theorem Grown.trans {g1 g2 : Graph} {s s' s'' : Matching} (h : Grown g1 g2 s s') (h' : Grown g1 g2 s' s'') :
    Grown g1 g2 s s'' := by
  refine ⟨h.ext.trans h'.ext, h'.both, fun k j hk hn => ?_⟩
  cases hk' : s'.1 k with
  | none => exact h'.agree k j hk hk'
  | some j' =>
    have := h'.ext.1 k j' hk'
    rw [hk] at this
    cases this
    exact (h.agree k _ hk' hn).mono h'.ext

theorem target_mem {nd : Node} {l : Label} {t : Nat} (h : nd.target l = some t) : (l, t) ∈ nd.arcs := by
  unfold Node.target at h
  obtain ⟨a, ha, rfl⟩ := Option.map_eq_some_iff.1 h
  have h1 := List.mem_of_find?_eq_some ha
  have h2 := List.find?_some ha
  simp at h2
  subst h2
  exact (mem_otherArcs.1 h1).1

theorem compareArcs_sound {g1 g2 : Graph} {again : Nat → Nat → Matching → Option (Bool × Matching)}
    (ih : ∀ {n m : Nat} {s s' : Matching}, again n m s = some (true, s') → s.Both →
      Grown g1 g2 s s' ∧ s'.1 n = some m)
    {nd2 : Node} : ∀ {as : List (Label × Nat)} {s s' : Matching}, compareArcs again nd2 as s = some (true, s') →
      s.Both → Grown g1 g2 s s' ∧ ∀ a ∈ as, ∃ t', (a.1, t') ∈ nd2.arcs ∧ s'.1 a.2 = some t' := by
  intro as
  induction as with
  | nil =>
    intro s s' h hb
    cases h
    exact ⟨⟨.refl s, hb, fun k j h1 h2 => by rw [h1] at h2; cases h2⟩, fun a ha => by cases ha⟩
  | cons a as iha =>
    intro s s' h hb
    unfold compareArcs at h
    cases ht : nd2.target a.1 with
    | none => rw [ht] at h; cases h
    | some t2 =>
      rw [ht] at h
      dsimp only at h
      obtain ⟨⟨b, s1⟩, h1, h2⟩ := Option.bind_eq_some_iff.1 h
      cases b with
      | false => cases h2
      | true =>
        obtain ⟨g1', m1⟩ := ih h1 hb
        obtain ⟨g2', m2⟩ := iha h2 g1'.both
        refine ⟨g1'.trans g2', fun x hx => ?_⟩
        rcases List.mem_cons.1 hx with rfl | hx
        · exact ⟨t2, target_mem ht, g2'.ext.1 _ _ m1⟩
        · exact m2 x hx

theorem compareNodes_sound {g1 g2 : Graph} (f : Nat) : ∀ {n m : Nat} {s s' : Matching},
    compareNodes g1 g2 f n m s = some (true, s') → s.Both → Grown g1 g2 s s' ∧ s'.1 n = some m := by
  induction f with
  | zero => intro n m s s' h; cases h
  | succ f ih =>
    intro n m s s' h hb
    unfold compareNodes at h
    cases h1 : s.1 n with
    | some m' =>
      cases h2 : s.2 m with
      | some n' =>
        rw [h1, h2] at h
        dsimp only at h
        have h3 := Option.some.inj h
        have h4 : (decide (m' = m) && decide (n' = n)) = true := congrArg Prod.fst h3
        have h5 : s = s' := congrArg Prod.snd h3
        subst h5
        simp at h4
        obtain ⟨rfl, rfl⟩ := h4
        exact ⟨⟨.refl s, hb, fun k j h1 h2 => by rw [h1] at h2; cases h2⟩, h1⟩
      | none => rw [h1, h2] at h; cases h
    | none =>
      cases h2 : s.2 m with
      | some n' => rw [h1, h2] at h; cases h
      | none =>
        rw [h1, h2] at h
        dsimp only at h
        split at h
        · cases h
        · next hfin =>
          obtain ⟨⟨b, s1⟩, h3, h4⟩ := Option.bind_eq_some_iff.1 h
          cases b with
          | false => cases h4
          | true =>
            rw [if_pos rfl] at h4
            have h5 := Option.some.inj h4
            have h6 := congrArg Prod.fst h5
            have h7 : s1 = s' := congrArg Prod.snd h5
            subst h7
            obtain ⟨G, hm⟩ := compareArcs_sound (g1 := g1) (g2 := g2) ih h3 (assign_both hb h1 h2)
            have hself : (assign s.1 n m) n = some m := by
              show (if n = n then _ else _) = _
              rw [if_pos rfl]
            have hn : s1.1 n = some m := G.ext.1 n m hself
            refine ⟨⟨(assign_ext h1 h2).trans G.ext, G.both, fun k j hk hk' => ?_⟩, hn⟩
            by_cases hkn : k = n
            · subst hkn
              rw [hn] at hk
              cases hk
              refine ⟨Classical.byContradiction hfin, fun l t hs => hm (l, t) (mem_iter.2 hs), fun l t' hs => ?_⟩
              have := List.all_eq_true.1 h6 (l, t') (mem_iter.2 hs)
              obtain ⟨t, ht⟩ := Option.isSome_iff_exists.1 this
              exact ⟨t, target_mem ht⟩
            · refine G.agree k j hk ?_
              show (if k = n then _ else _) = _
              rw [if_neg hkn]
              exact hk'

theorem agree_alike {g1 g2 : Graph} (d1 : g1.Deterministic) (d2 : g2.Deterministic) {s : Matching}
    (hs : ∀ n m, s.1 n = some m → Agree g1 g2 s n m) (w : List Label) : ∀ {n m : Nat}, s.1 n = some m →
      g1.Reach 0 n → g2.Reach 0 m → (g1.Takes n w ↔ g2.Takes m w) := by
  induction w with
  | nil =>
    intro n m h r1 r2
    rw [takes_noeps (d1 n r1).1, takes_noeps (d2 m r2).1, (hs n m h).final]
    constructor
    · rintro (h | ⟨_, _, _, h, _⟩)
      · exact .inl h
      · cases h
    · rintro (h | ⟨_, _, _, h, _⟩)
      · exact .inl h
      · cases h
  | cons l v ih =>
    intro n m h r1 r2
    have A := hs n m h
    constructor
    · intro ht
      rcases (takes_noeps (d1 n r1).1).1 ht with ⟨h, _⟩ | ⟨l', v', t, he, hst, ht'⟩
      · cases h
      · cases he
        obtain ⟨t', h1, h2⟩ := A.there l t hst
        exact (takes_arc (d2 m r2).1 (d2 m r2).2 h1 v).2
          ((ih h2 (r1.trans (.step hst .refl)) (r2.trans (.step h1 .refl))).1 ht')
    · intro ht
      rcases (takes_noeps (d2 m r2).1).1 ht with ⟨h, _⟩ | ⟨l', v', t', he, hst, ht'⟩
      · cases h
      · cases he
        obtain ⟨t, h0⟩ := A.back l t' hst
        obtain ⟨t'', h1, h2⟩ := A.there l t h0
        have := step_unique (d2 m r2).2 hst h1
        subst this
        exact (takes_arc (d1 n r1).1 (d1 n r1).2 h0 v).2
          ((ih h2 (r1.trans (.step h0 .refl)) (r2.trans (.step h1 .refl))).2 ht')

/-! ## If the same is accepted -/

structure Fits (g1 g2 : Graph) (s : Matching) : Prop where
  both : s.Both
  alike : ∀ n m, s.1 n = some m → g1.Reach 0 n ∧ g2.Reach 0 m ∧ Alike g1 g2 n m

theorem compareArcs_complete {g1 g2 : Graph} {again : Nat → Nat → Matching → Option (Bool × Matching)}
    (m1 : g1.Minimal) (m2 : g2.Minimal)
    (ih : ∀ {n m : Nat} {s : Matching} {r : Bool × Matching}, again n m s = some r → g1.Reach 0 n → g2.Reach 0 m →
      Alike g1 g2 n m → Fits g1 g2 s → r.1 = true ∧ Fits g1 g2 r.2)
    {n m : Nat} (r1 : g1.Reach 0 n) (r2 : g2.Reach 0 m) (hal : Alike g1 g2 n m) :
    ∀ {as : List (Label × Nat)} {s : Matching} {r : Bool × Matching}, (∀ a ∈ as, a ∈ (g1.node n).arcs) →
      compareArcs again (g2.node m) as s = some r → Fits g1 g2 s → r.1 = true ∧ Fits g1 g2 r.2 := by
  intro as
  induction as with
  | nil => intro s r _ h hs; cases h; exact ⟨rfl, hs⟩
  | cons a as iha =>
    intro s r ha h hs
    unfold compareArcs at h
    have hst : g1.Step n a.1 a.2 := ha a (List.mem_cons_self ..)
    obtain ⟨t', ht', hal'⟩ := alike_step m1.1 m2.1 r1 r2 hal hst (m1.2.2 n _ _ r1 hst)
    have htar : (g2.node m).target a.1 = some t' := (target_iff (m2.1 m r2).2 ((m2.1 m r2).1 _ ht')).2 ht'
    rw [htar] at h
    dsimp only at h
    obtain ⟨⟨b, s1⟩, h1, h2⟩ := Option.bind_eq_some_iff.1 h
    obtain ⟨h3, h4⟩ := ih h1 (r1.trans (.step hst .refl)) (r2.trans (.step ht' .refl)) hal' hs
    dsimp only at h2 h3
    rw [if_pos h3] at h2
    exact iha (fun x hx => ha x (List.mem_cons_of_mem _ hx)) h2 h4

theorem compareNodes_complete {g1 g2 : Graph} (m1 : g1.Minimal) (m2 : g2.Minimal) (f : Nat) :
    ∀ {n m : Nat} {s : Matching} {r : Bool × Matching}, compareNodes g1 g2 f n m s = some r → g1.Reach 0 n →
      g2.Reach 0 m → Alike g1 g2 n m → Fits g1 g2 s → r.1 = true ∧ Fits g1 g2 r.2 := by
  induction f with
  | zero => intro n m s r h; cases h
  | succ f ih =>
    intro n m s r h r1 r2 hal hs
    unfold compareNodes at h
    cases h1 : s.1 n with
    | some m' =>
      obtain ⟨_, r2', hal'⟩ := hs.alike n m' h1
      have hm : m' = m := m2.2.1 m' m r2' r2 (fun w => (hal' w).symm.trans (hal w))
      subst hm
      have h2 := (hs.both n m').1 h1
      rw [h1, h2] at h
      cases h
      simp [hs]
    | none =>
      cases h2 : s.2 m with
      | some n' =>
        have h3 := (hs.both n' m).2 h2
        obtain ⟨r1', _, hal'⟩ := hs.alike n' m h3
        have hn : n' = n := m1.2.1 n' n r1' r1 (fun w => (hal' w).trans (hal w).symm)
        rw [hn, h1] at h3
        cases h3
      | none =>
        rw [h1, h2] at h
        dsimp only at h
        rw [if_neg (fun hne => hne (alike_final (m1.1 n r1).1 (m2.1 m r2).1 hal))] at h
        obtain ⟨⟨b, s1⟩, h3, h4⟩ := Option.bind_eq_some_iff.1 h
        have hs1 : Fits g1 g2 (assign s.1 n m, assign s.2 m n) := by
          refine ⟨assign_both hs.both h1 h2, fun k j hk => ?_⟩
          change (if k = n then some m else s.1 k) = some j at hk
          by_cases hkn : k = n
          · subst hkn
            rw [if_pos rfl] at hk
            cases hk
            exact ⟨r1, r2, hal⟩
          · rw [if_neg hkn] at hk
            exact hs.alike k j hk
        obtain ⟨h5, h6⟩ := compareArcs_complete m1 m2 ih r1 r2 hal (fun a ha => mem_iter.1 ha) h3 hs1
        dsimp only at h4 h5 h6
        rw [if_pos h5] at h4
        cases h4
        refine ⟨List.all_eq_true.2 fun a ha => ?_, h6⟩
        have hst : g2.Step m a.1 a.2 := mem_iter.1 ha
        obtain ⟨t, ht, _⟩ := alike_step m2.1 m1.1 r2 r1 hal.symm hst (m2.2.2 m _ _ r2 hst)
        rw [(target_iff (m1.1 n r1).2 ((m1.1 n r1).1 _ ht)).2 ht]
        rfl

/-- The comparison of two minimal transducers. -/
theorem compare_exact {g1 g2 : Graph} (c1 : g1.Closed) (m1 : g1.Minimal) (m2 : g2.Minimal) :
    ∃ r, compareNodes g1 g2 (g1.size + 1) 0 0 (fun _ => none, fun _ => none) = some r ∧
      (r.1 = true ↔ ∀ w, g1.Takes 0 w ↔ g2.Takes 0 w) := by
  obtain ⟨r, hr, _⟩ := compareNodes_total c1 g2 (g1.size + 1) 0 0 (fun _ => none, fun _ => none) c1.1 (by
    unfold Matching.left waiting
    exact Nat.lt_succ_of_le (Nat.le_trans (List.length_filter_le ..) (by simp)))
  have hb : Matching.Both (fun _ => none, fun _ => none) := fun n m =>
    ⟨fun h => (by cases h), fun h => (by cases h)⟩
  refine ⟨r, hr, fun h => ?_, fun h => ?_⟩
  · obtain ⟨b, s'⟩ := r
    dsimp only at h
    subst h
    obtain ⟨G, h0⟩ := compareNodes_sound _ hr hb
    exact fun w => agree_alike m1.1 m2.1 (fun n m hk => G.agree n m hk rfl) w h0 .refl .refl
  · exact (compareNodes_complete m1 m2 _ hr .refl .refl h ⟨hb, fun n m hk => (by cases hk)⟩).1

end Hfst.Sfst
