import Verif.Lemmas.SfstMin
import Verif.Props.SfstDemo

/-!
# C68: minimisation in the SFST back-end
-/

namespace Hfst.Sfst

/-- A deterministic transducer without useless arcs and with only one node in reach is minimal. -/
theorem minimal_of_single {g : Graph} (hd : g.Deterministic) (h : ∀ n, g.Reach 0 n → n = 0)
    (ht : ∀ n l m, g.Reach 0 n → g.Step n l m → ∃ w, g.Takes m w) : g.Minimal :=
  ⟨hd, fun n m hn hm _ => (h n hn).trans (h m hm).symm, ht⟩

theorem Graph.Reach.last {g : Graph} {n m : Nat} (h : g.Reach n m) :
    m = n ∨ ∃ p l, g.Reach n p ∧ g.Step p l m := by
  induction h with
  | refl => exact .inl rfl
  | @step n q m l hs _ ih =>
    rcases ih with rfl | ⟨p, l', h1, h2⟩
    · exact .inr ⟨n, l, .refl, hs⟩
    · exact .inr ⟨p, l', .step hs h1, h2⟩

theorem Graph.Minimal.useful {g : Graph} (h : g.Minimal) {n : Nat} (hn : g.Reach 0 n) (h0 : n ≠ 0) :
    ∃ w, g.Takes n w := by
  rcases hn.last with h' | ⟨p, l, h1, h2⟩
  · exact absurd h' h0
  · exact h.2.2 p l n h1 h2

theorem takes_pre {g : Graph} {n m : Nat} {w : List Label} (hr : g.Reach n m) (h : g.Takes m w) :
    ∃ v, g.Takes n v := by
  obtain ⟨u, hu⟩ := hr.path
  obtain ⟨p, hp, hf⟩ := takes_iff_path.1 h
  exact ⟨u ++ w, takes_iff_path.2 ⟨p, hu.trans hp, hf⟩⟩

theorem fresh_reach {n m : Nat} (h : Graph.fresh.Reach n m) : m = n := by
  cases h with
  | refl => rfl
  | step hs _ => cases hs

theorem fresh_minimal : Graph.fresh.Minimal := by
  refine minimal_of_single (fun n _ => ⟨fun a ha => (by cases ha), List.nodup_nil⟩) (fun n hn => fresh_reach hn)
    (fun n l m _ hs => (by cases hs))

theorem fresh_takes {n : Nat} {w : List Label} : ¬ Graph.fresh.Takes n w := by
  intro h
  cases h with
  | stop hf => cases hf
  | skip hs _ => cases hs
  | read _ hs _ => cases hs

/-- The minimiser, given a deterministic transducer without useless nodes. -/
theorem minimiser_ok {A : Fst} (hc : A.graph.Closed) (hd : A.deterministic = true) (hD : A.graph.Deterministic)
    (ht : ∀ n l m, A.graph.Reach 0 n → A.graph.Step n l m → ∃ w, A.graph.Takes m w) :
    ∃ r, minimiser A = some r ∧ r.graph.Closed ∧ r.graph.Minimal ∧ r.deterministic = true ∧
      ∀ w, r.Takes w ↔ A.Takes w := by
  obtain ⟨V, hV, hn, hm⟩ := nodeArray_ok hc
  have h0 : 0 ∈ V := (hm 0).2 .refl
  unfold minimiser
  rw [hV]
  show ∃ r, (if V.length = 1 then _ else _) = some r ∧ _
  by_cases h1 : V.length = 1
  · rw [if_pos h1]
    have hone : ∀ n, A.graph.Reach 0 n → n = 0 := by
      intro n hr
      have h2 := (hm n).2 hr
      match V, h1 with
      | [x], _ => exact (List.mem_singleton.1 h2).trans (List.mem_singleton.1 h0).symm
    have hA' : Fst.Honest { A with minimised := true } :=
      ⟨hc, fun _ => hD, fun _ => minimal_of_single hD hone ht⟩
    obtain ⟨R', h3, h4, h5, h6, h7⟩ := copy_exact hA' false
    have hcopy : A.copy false = some { R' with minimised := A.minimised } := by
      unfold Fst.copy at h3 ⊢
      dsimp only at h3 ⊢
      obtain ⟨b, hb, rfl⟩ := Option.map_eq_some_iff.1 h3
      rw [hb]
      rfl
    refine ⟨_, hcopy, h4.closed, h4.minimised h6, h5.trans hd, fun w => ?_⟩
    have := h7 w
    have hid : w.map (copyLabel false) = w := List.map_id w
    rw [hid] at this
    exact this
  · rw [if_neg h1]
    have hN : HNodes A.graph V := ⟨hn, fun n hn a ha => (hm _).2 (((hm n).1 hn).trans (.step (l := a.1) ha .refl)),
      fun n hn => (hD n ((hm n).1 hn)).1, fun n hn => (hD n ((hm n).1 hn)).2⟩
    have hother : ∃ s ∈ V, s ≠ 0 := by
      refine Classical.byContradiction fun hno => h1 ?_
      have hall : ∀ s ∈ V, s = 0 := fun s hs => Classical.byContradiction fun h => hno ⟨s, hs, h⟩
      match V, hn, h0 with
      | [x], _, _ => rfl
      | x :: y :: V, hn, _ =>
        exact absurd ((hall x (List.mem_cons_self ..)).trans
          (hall y (List.mem_cons_of_mem _ (List.mem_cons_self ..))).symm)
          (fun e : x = y => (List.nodup_cons.1 hn).1 (e ▸ List.mem_cons_self ..))
    have ha : ∀ n ∈ V, ∃ w, A.graph.Takes n w := by
      intro n hnV
      by_cases hz : n = 0
      · subst hz
        obtain ⟨s, hs, hs0⟩ := hother
        rcases ((hm s).1 hs).last with h | ⟨p, l, h2, h3⟩
        · exact absurd h hs0
        · obtain ⟨w, hw⟩ := ht p l s h2 h3
          exact takes_pre ((hm s).1 hs) hw
      · rcases ((hm n).1 hnV).last with h | ⟨p, l, h2, h3⟩
        · exact absurd h hz
        · exact ht p l n h2 h3
    have hf : ∃ n ∈ V, (A.graph.node n).final = true := by
      obtain ⟨w, hw⟩ := ha 0 h0
      obtain ⟨p, hp, hpf⟩ := takes_iff_path.1 hw
      exact ⟨p, (hm p).2 hp.reach, hpf⟩
    obtain ⟨H, hs, hk, hi, hlen⟩ := start_ok hN hf
    obtain ⟨H', hl, hG, hsame⟩ := hopLoop_ok hN ha _ hk hi hlen
    rw [hs]
    dsimp only
    rw [hl]
    obtain ⟨b1, b2, b3⟩ := build_ok hN h0 ha hG hsame
    exact ⟨_, rfl, b1, b2, rfl, b3⟩

/-- What minimisation promises. -/
structure Minimised (F R : Fst) : Prop where
  honest : R.Honest
  deterministic : R.deterministic = true → R.graph.Deterministic
  marked : R.minimised = true
  minimal : R.graph.Minimal
  takes : ∀ w, R.Takes w ↔ F.Takes w

theorem copy_minimised {F : Fst} (hF : F.Honest) (h : F.minimised = true) :
    ∃ R, F.copy false = some R ∧ Minimised F R := by
  obtain ⟨R, h1, h2, _, h4, h5⟩ := copy_exact hF false
  refine ⟨R, h1, h2, h2.deterministic, h4.trans h, h2.minimised (h4.trans h), fun w => ?_⟩
  rw [h5]
  have hid : w.map (copyLabel false) = w := List.map_id w
  rw [hid]

/-- A minimal transducer has no more nodes in reach than any deterministic transducer that accepts the
same. -/
theorem Graph.Minimal.least {g : Graph} (hg : g.Minimal) {G : Graph} (hc : G.Closed) (hD : G.Deterministic)
    (he : ∀ w, g.Takes 0 w ↔ G.Takes 0 w) {ns : List Nat} (hn : ns.Nodup) (hr : ∀ n ∈ ns, g.Reach 0 n) :
    ns.length ≤ G.size := by
  -- after the same word the same is accepted
  have hafter : ∀ {h : Graph}, h.Deterministic → ∀ {u : List Label} {n : Nat}, h.Path 0 u n →
      ∀ w, h.Takes n w ↔ h.Takes 0 (u ++ w) := by
    intro h hd u n hp w
    constructor
    · intro ht
      obtain ⟨p, h1, h2⟩ := takes_iff_path.1 ht
      exact takes_iff_path.2 ⟨p, hp.trans h1, h2⟩
    · have key : ∀ {a n : Nat} {u : List Label}, h.Path a u n → h.Reach 0 a → h.Takes a (u ++ w) → h.Takes n w := by
        intro a n u hp
        induction hp with
        | nil => exact fun _ ht => ht
        | skip hs _ _ => exact fun hra => absurd rfl ((hd _ hra).1 _ hs)
        | @read a m n l u hl hs _ ih =>
          intro hra ht
          refine ih (hra.trans (.step hs .refl)) ?_
          rcases (takes_noeps (hd _ hra).1).1 ht with ⟨h, _⟩ | ⟨l', v, m', hv, hs', htv⟩
          · cases h
          · cases hv
            have h1 : h.Path a [l] m := .read hl hs .nil
            have h2 : h.Path a [l] m' := .read hl hs' .nil
            rw [path_det hd h1 hra h2]
            exact htv
      exact key hp .refl
  -- each node has a counterpart
  have hex : ∀ n, g.Reach 0 n → ∃ m, m < G.size ∧ ((n = 0 ∧ m = 0) ∨ ∀ w, G.Takes m w ↔ g.Takes n w) := by
    intro n hrn
    by_cases hz : n = 0
    · exact ⟨0, hc.1, .inl ⟨hz, rfl⟩⟩
    · obtain ⟨u, hu⟩ := hrn.path
      obtain ⟨w, hw⟩ := hg.useful hrn hz
      have h1 := (he _).1 ((hafter hg.1 hu w).1 hw)
      obtain ⟨p, hp, _⟩ := takes_iff_path.1 h1
      have hsplit : ∀ {a p : Nat} {u w : List Label}, G.Path a (u ++ w) p → ∃ m, G.Path a u m := by
        intro a p u w hp
        generalize hx : u ++ w = x at hp
        induction hp generalizing u with
        | nil =>
          cases u with
          | nil => exact ⟨_, .nil⟩
          | cons => cases hx
        | skip hs _ ih =>
          obtain ⟨m, hm⟩ := ih hx
          exact ⟨m, .skip hs hm⟩
        | read hl hs _ ih =>
          cases u with
          | nil => exact ⟨_, .nil⟩
          | cons l u =>
            cases hx
            obtain ⟨m, hm⟩ := ih rfl
            exact ⟨m, .read hl hs hm⟩
      obtain ⟨m, hm⟩ := hsplit hp
      refine ⟨m, hc.reach hm.reach hc.1, .inr fun w => ?_⟩
      rw [hafter hD hm w, hafter hg.1 hu w]
      exact (he _).symm
  have hchoice : ∀ n, ∃ m, g.Reach 0 n → m < G.size ∧ ((n = 0 ∧ m = 0) ∨ ∀ w, G.Takes m w ↔ g.Takes n w) := by
    intro n
    by_cases h : g.Reach 0 n
    · obtain ⟨m, hm⟩ := hex n h
      exact ⟨m, fun _ => hm⟩
    · exact ⟨0, fun h' => absurd h' h⟩
  have hall : ∀ n m, (n = 0 ∧ m = 0) ∨ (∀ w, G.Takes m w ↔ g.Takes n w) → ∀ w, G.Takes m w ↔ g.Takes n w := by
    rintro n m (⟨rfl, rfl⟩ | h) w
    · exact (he w).symm
    · exact h w
  let φ : Nat → Nat := fun n => Classical.choose (hchoice n)
  have hφ : ∀ n, g.Reach 0 n → φ n < G.size ∧ ∀ w, G.Takes (φ n) w ↔ g.Takes n w := fun n hrn =>
    ⟨(Classical.choose_spec (hchoice n) hrn).1, hall n _ (Classical.choose_spec (hchoice n) hrn).2⟩
  have hnd : (ns.map φ).Nodup := by
    refine List.pairwise_map.2 (List.Pairwise.imp_of_mem ?_ hn)
    intro a b hma hmb hne heq
    refine hne (hg.2.1 a b (hr a hma) (hr b hmb) fun w => ?_)
    rw [← (hφ a (hr a hma)).2, ← (hφ b (hr b hmb)).2, heq]
  have := nodup_length_le (ys := List.range G.size) hnd (fun x hx => by
    obtain ⟨n, hn, rfl⟩ := List.mem_map.1 hx
    exact List.mem_range.2 (hφ n (hr n hn)).1)
  rwa [List.length_map, List.length_range] at this

/-- **C68, minimisation** (`minimize`, by Hopcroft's algorithm): it ends, the result accepts exactly the same
sequences, is marked as minimised, and is minimal. -/
theorem C68_minimise {F : Fst} (hF : F.Honest) :
    ∃ R, F.hopcroftMinimise = some R ∧ R.Honest ∧ R.minimised = true ∧ R.graph.Minimal ∧
      ∀ w, R.Takes w ↔ F.Takes w := by
  by_cases hm : F.minimised = true
  · obtain ⟨R, h, hR⟩ := copy_minimised hF hm
    exact ⟨R, by unfold Fst.hopcroftMinimise; rw [if_pos hm]; exact h, hR.honest, hR.marked, hR.minimal, hR.takes⟩
  · obtain ⟨a1, map1, r1, d1, m1, H1⟩ := reverse_isReverse hF.closed false
    obtain ⟨a2, map2, r2, d2, m2, H2⟩ := reverse_isReverse H1.closed false
    obtain ⟨k0, b, hdet, hk, hB⟩ := determinise_built H2.closed d2 false
    have hD : b.graph.Deterministic := hB.deterministic (fun k hr => by
      obtain ⟨R, hR⟩ := kreach_array H2.closed hr ⟨_, hk⟩
      obtain ⟨h1, _, h3⟩ := mem_transitions H2.closed hR
      exact ⟨fun c hc => (h1 c hc).1, h3⟩)
    have htrim : ∀ n l m, b.graph.Reach 0 n → b.graph.Step n l m → ∃ w, b.graph.Takes m w := by
      intro n l m hn hs
      obtain ⟨k, hkn, hkr⟩ := hB.reach hn hB.root
      obtain ⟨k', hk', hm'⟩ := (hB.done k n hkn).arc.1 hs
      obtain ⟨w, hw⟩ := trim_keys H2 (kreach_array H2.closed hkr ⟨_, hk⟩) hk'
      exact ⟨w, (hB.takes_at hm' w).2 hw⟩
    obtain ⟨r, hr, c1, c2, c3, c4⟩ := minimiser_ok
      (A := ⟨b.graph, true, false, if false = true then copyPairs [] a2.pairs else []⟩) hB.closed rfl hD htrim
    obtain ⟨R, hR, e1, e2, e3, _⟩ := minimiseAlphabet_ok
      (F := { r with minimised := true, pairs := copyPairs r.pairs F.pairs }) c1
    refine ⟨R, ?_, ⟨?_, ?_, ?_⟩, e3, ?_, fun w => ?_⟩
    · unfold Fst.hopcroftMinimise
      rw [if_neg hm, r1]
      show (a1.reverse false).bind _ = _
      rw [r2]
      show (a2.determinise false).bind _ = _
      rw [hdet]
      show (minimiser _).bind _ = _
      rw [hr]
      exact hR
    · rw [e1]; exact c1
    · intro _; rw [e1]; exact c2.1
    · intro _; rw [e1]; exact c2
    · rw [e1]; exact c2
    · have h1 : R.Takes w ↔ r.Takes w := by unfold Fst.Takes; rw [e1]
      rw [h1, c4 w]
      refine (hB.takes w).trans ((array_takes H2.closed w hk).trans ?_)
      have h2 : a2.graph.Takes 0 w ↔ F.Takes w := by
        rw [H2.takes w, H1.takes w.reverse, List.reverse_reverse]
        rfl
      exact ⟨by rintro ⟨q, rfl, h⟩; exact h2.1 h, fun h => ⟨0, rfl, h2.2 h⟩⟩

/-- **C68, minimisation by reversing twice** (`minimize` with Hopcroft's algorithm turned off): it ends, the
result accepts exactly the same sequences, is marked as minimised, and is minimal. -/
theorem C68_rev_det {F : Fst} (hF : F.Honest) :
    ∃ R, F.revDetMinimise = some R ∧ R.Honest ∧ R.minimised = true ∧ R.graph.Minimal ∧
      ∀ w, R.Takes w ↔ F.Takes w := by
  by_cases hm : F.minimised = true
  · obtain ⟨R, h, hR⟩ := copy_minimised hF hm
    exact ⟨R, by unfold Fst.revDetMinimise; rw [if_pos hm]; exact h, hR.honest, hR.marked, hR.minimal, hR.takes⟩
  · obtain ⟨a1, map1, r1, d1, m1, H1⟩ := reverse_isReverse hF.closed true
    obtain ⟨a2, r2, hon2, _, hD2, ht2⟩ := C66_determinise (F := a1)
      ⟨H1.closed, (by intro h; rw [d1] at h; cases h), (by intro h; rw [m1] at h; cases h)⟩ true
    obtain ⟨a3, map3, r3, d3, m3, H3⟩ := reverse_isReverse hon2.closed true
    obtain ⟨k0, b, hdet, hk, hB⟩ := determinise_built H3.closed d3 true
    have hD : b.graph.Deterministic := hB.deterministic (fun k hr => by
      obtain ⟨R, hR⟩ := kreach_array H3.closed hr ⟨_, hk⟩
      obtain ⟨h1, _, h3⟩ := mem_transitions H3.closed hR
      exact ⟨fun c hc => (h1 c hc).1, h3⟩)
    have hmin : b.graph.Minimal := by
      refine ⟨hD, ?_, ?_⟩
      · intro n m hn hm' he
        obtain ⟨k, hkn, hkr⟩ := hB.reach hn hB.root
        obtain ⟨k', hkm, hkr'⟩ := hB.reach hm' hB.root
        obtain ⟨S, hS⟩ := kreach_array H3.closed hkr ⟨_, hk⟩
        obtain ⟨S', hS'⟩ := kreach_array H3.closed hkr' ⟨_, hk⟩
        have := keys_distinct H3 hD2 hS hS' (fun w => by
          rw [← hB.takes_at hkn w, ← hB.takes_at hkm w]; exact he w)
        subst this
        rw [hkn] at hkm
        exact Option.some.inj hkm
      · intro n l m hn hs
        obtain ⟨k, hkn, hkr⟩ := hB.reach hn hB.root
        obtain ⟨k', hk', hm'⟩ := (hB.done k n hkn).arc.1 hs
        obtain ⟨w, hw⟩ := trim_keys H3 (kreach_array H3.closed hkr ⟨_, hk⟩) hk'
        exact ⟨w, (hB.takes_at hm' w).2 hw⟩
    obtain ⟨R, hR, e1, e2, e3, _⟩ := minimiseAlphabet_ok
      (F := ⟨b.graph, true, true, if true = true then copyPairs [] a3.pairs else []⟩) hB.closed
    refine ⟨R, ?_, ⟨?_, ?_, ?_⟩, e3, ?_, fun w => ?_⟩
    · unfold Fst.revDetMinimise
      rw [if_neg hm, r1]
      show (a1.determinise true).bind _ = _
      rw [r2]
      show (a2.reverse true).bind _ = _
      rw [r3]
      show (a3.determinise true).bind _ = _
      rw [hdet]
      exact hR
    · rw [e1]; exact hB.closed
    · intro _; rw [e1]; exact hD
    · intro _; rw [e1]; exact hmin
    · rw [e1]; exact hmin
    · have h1 : R.Takes w ↔ b.graph.Takes 0 w := by unfold Fst.Takes; rw [e1]
      rw [h1]
      refine (hB.takes w).trans ((array_takes H3.closed w hk).trans ?_)
      have h2 : a3.graph.Takes 0 w ↔ F.Takes w := by
        rw [H3.takes w]
        show a2.Takes w.reverse ↔ _
        rw [ht2]
        show a1.graph.Takes 0 w.reverse ↔ _
        rw [H1.takes w.reverse, List.reverse_reverse]
        rfl
      exact ⟨by rintro ⟨q, rfl, h⟩; exact h2.1 h, fun h => ⟨0, rfl, h2.2 h⟩⟩

/-- **C68, no smaller one**: of all deterministic transducers that accept the same, none has fewer nodes than
the result of minimisation has in reach of its root. -/
theorem C68_smallest {F R : Fst} (hF : F.Honest) (h : F.hopcroftMinimise = some R ∨ F.revDetMinimise = some R)
    {G : Fst} (hc : G.graph.Closed) (hD : G.graph.Deterministic) (he : ∀ w, G.Takes w ↔ F.Takes w)
    {ns : List Nat} (hn : ns.Nodup) (hr : ∀ n ∈ ns, R.graph.Reach 0 n) : ns.length ≤ G.graph.size := by
  rcases h with h | h
  · obtain ⟨R', h1, _, _, h4, h5⟩ := C68_minimise hF
    rw [h] at h1
    cases h1
    exact h4.least hc hD (fun w => (h5 w).trans (he w).symm) hn hr
  · obtain ⟨R', h1, _, _, h4, h5⟩ := C68_rev_det hF
    rw [h] at h1
    cases h1
    exact h4.least hc hD (fun w => (h5 w).trans (he w).symm) hn hr

/-- A case: after an a or a b the same comes, so of the three nodes in `demo` two are left. -/
example : (∃ R, demo.hopcroftMinimise = some R ∧ R.graph.Minimal ∧ R.Takes [⟨2, 5⟩, ⟨4, 4⟩]) ∧
    (demo.hopcroftMinimise.map (fun R => R.graph.size)) = some 2 ∧
    (demo.revDetMinimise.map (fun R => R.graph.size)) = some 2 := by
  refine ⟨?_, by decide +kernel, by decide +kernel⟩
  obtain ⟨R, h, _, _, h1, h2⟩ := C68_minimise demo_honest
  exact ⟨R, h, h1, (h2 _).2 demo_takes⟩

end Hfst.Sfst
