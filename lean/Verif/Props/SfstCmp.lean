import Verif.Lemmas.SfstNeg

/-!
# C69: equivalence, complement and difference in the SFST back-end
-/

namespace Hfst.Sfst

/-- **C69, equivalence** (`compare`): the answer is yes exactly if both transducers accept the same sequences
of symbol pairs. -/
theorem C69_equal {F G : Fst} (hF : F.Honest) (hG : G.Honest) :
    ∃ b, F.equal G = some b ∧ (b = true ↔ ∀ w, F.Takes w ↔ G.Takes w) := by
  have hmin : ∀ {F : Fst}, F.Honest → ∃ p, (if F.minimised then some F else F.hopcroftMinimise) = some p ∧
      p.graph.Closed ∧ p.graph.Minimal ∧ ∀ w, p.Takes w ↔ F.Takes w := by
    intro F hF
    by_cases hm : F.minimised = true
    · exact ⟨F, if_pos hm, hF.closed, hF.minimised hm, fun w => Iff.rfl⟩
    · obtain ⟨R, h1, h2, _, h4, h5⟩ := C68_minimise hF
      exact ⟨R, (if_neg hm).trans h1, h2.closed, h4, h5⟩
  obtain ⟨p1, e1, c1, m1, t1⟩ := hmin hF
  obtain ⟨p2, e2, _, m2, t2⟩ := hmin hG
  obtain ⟨r, hr, hb⟩ := compare_exact c1 m1 m2
  refine ⟨r.1, ?_, hb.trans ?_⟩
  · unfold Fst.equal
    rw [e1, e2]
    show Option.map _ (compareNodes _ _ _ _ _ _) = _
    rw [hr]
    rfl
  · constructor
    · intro h w
      rw [← t1, ← t2]
      exact h w
    · intro h w
      show p1.Takes w ↔ p2.Takes w
      rw [t1, t2]
      exact h w

/-- The pairs of an accepted sequence stand on arcs. -/
theorem takes_labels {g : Graph} {n : Nat} {w : List Label} (h : g.Takes n w) :
    g.Reach 0 n → ∀ l ∈ w, l ≠ ⟨0, 0⟩ ∧ ∃ n m, g.Reach 0 n ∧ g.Step n l m := by
  induction h with
  | stop => intro _ l hl; cases hl
  | skip hs _ ih => exact fun hn => ih (hn.trans (.step hs .refl))
  | @read n m l w hne hs _ ih =>
    intro hn x hx
    rcases List.mem_cons.1 hx with rfl | hx
    · exact ⟨hne, n, m, hn, hs⟩
    · exact ih (hn.trans (.step hs .refl)) x hx

/-- In a minimal transducer every arc is on the way to acceptance. -/
theorem Graph.Minimal.arc_used {g : Graph} (h : g.Minimal) {n m : Nat} {l : Label} (hn : g.Reach 0 n)
    (hs : g.Step n l m) : ∃ w, g.Takes 0 w ∧ l ∈ w := by
  obtain ⟨v, hv⟩ := h.2.2 n l m hn hs
  obtain ⟨u, hu⟩ := hn.path
  obtain ⟨p, hp, hf⟩ := takes_iff_path.1 hv
  have hl : l ≠ ⟨0, 0⟩ := (h.1 n hn).1 _ hs
  exact ⟨u ++ l :: v, takes_iff_path.2 ⟨p, hu.trans (.read hl hs hp), hf⟩, by simp⟩

/-- What the complement starts from. -/
theorem negate_from {F : Fst} (hF : F.Honest) :
    ∃ na, (if F.minimised then F.copy false else F.hopcroftMinimise) = some na ∧ na.graph.Closed ∧
      na.graph.Minimal ∧ (∀ w, na.Takes w ↔ F.Takes w) ∧
      ∀ l ∈ na.pairs, l ≠ ⟨0, 0⟩ ∧ (l ∈ F.pairs ∨ ∃ n m, na.graph.Reach 0 n ∧ na.graph.Step n l m) := by
  by_cases hm : F.minimised = true
  · obtain ⟨R, h, hR⟩ := copy_minimised hF hm
    refine ⟨R, (if_pos hm).trans h, hR.honest.closed, hR.minimal, hR.takes, fun l hl => ?_⟩
    unfold Fst.copy at h
    dsimp only at h
    obtain ⟨b, _, rfl⟩ := Option.map_eq_some_iff.1 h
    rcases mem_copyPairs.1 hl with h | ⟨h1, h2⟩
    · cases h
    · exact ⟨h2, .inl h1⟩
  · obtain ⟨R, h1, h2, _, h4, h5⟩ := C68_minimise hF
    refine ⟨R, (if_neg hm).trans h1, h2.closed, h4, h5, fun l hl => ?_⟩
    unfold Fst.hopcroftMinimise at h1
    rw [if_neg hm] at h1
    obtain ⟨a1, _, h1⟩ := Option.bind_eq_some_iff.1 h1
    obtain ⟨a2, _, h1⟩ := Option.bind_eq_some_iff.1 h1
    obtain ⟨a3, _, h1⟩ := Option.bind_eq_some_iff.1 h1
    obtain ⟨r, _, h1⟩ := Option.bind_eq_some_iff.1 h1
    have hg : R.graph = r.graph := by
      unfold Fst.minimiseAlphabet at h1
      obtain ⟨ls, _, rfl⟩ := Option.map_eq_some_iff.1 h1
      rfl
    obtain ⟨R', h6, h7, _, _, h8⟩ := minimiseAlphabet_ok
      (F := { r with minimised := true, pairs := copyPairs r.pairs F.pairs }) (hg ▸ h2.closed)
    rw [h1] at h6
    cases h6
    obtain ⟨h9, h10⟩ := (h8 l).1 hl
    rw [hg]
    exact ⟨h9, .inr h10⟩

/-- **C69, complement** (`operator!`): of the sequences of pairs of its alphabet the result accepts exactly
those that the transducer does not accept; and if the alphabet has all pairs on the arcs, then it accepts no
others.  With an empty alphabet there is an error instead. -/
theorem C69_complement {F : Fst} (hF : F.Honest) (hp : F.pairs ≠ []) :
    ∃ R, F.negate = some (some R) ∧ R.Honest ∧
      (∀ w, (∀ l ∈ w, l ∈ F.pairs ∧ l ≠ ⟨0, 0⟩) → (R.Takes w ↔ ¬ F.Takes w)) ∧
      ((∀ n l m, F.graph.Reach 0 n → F.graph.Step n l m → l ∈ F.pairs ∨ l = ⟨0, 0⟩) →
        ∀ w, R.Takes w → ∀ l ∈ w, l ∈ F.pairs) := by
  obtain ⟨na, h1, h2, h3, h4, h5⟩ := negate_from hF
  have hps : ∀ l ∈ copyPairs na.pairs F.pairs, l ≠ ⟨0, 0⟩ := by
    intro l hl
    rcases mem_copyPairs.1 hl with h | h
    · exact (h5 l h).1
    · exact h.2
  obtain ⟨s, hs, H⟩ := negate_shape h2 (qs := F.pairs) hps
  refine ⟨⟨s.2, false, false, copyPairs na.pairs F.pairs⟩, ?_,
    ⟨H.closed, (by intro h; cases h), (by intro h; cases h)⟩, fun w hw => ?_, fun hc w hw => ?_⟩
  · unfold Fst.negate
    rw [if_neg hp, h1]
    show Option.map _ (visit _ _ _ _ _) = _
    rw [hs]
    rfl
  · rw [← h4]
    exact H.takes h3.1 hps (fun l hl hne => mem_copyPairs.2 (.inr ⟨hl, hne⟩)) w .refl hw
  · have hN : ∀ n l t, na.graph.Reach 0 n → na.graph.Step n l t → l ∈ F.pairs := by
      intro n l t hn hst
      obtain ⟨u, hu, hl⟩ := h3.arc_used hn hst
      obtain ⟨hne, k, j, hk, hkj⟩ := takes_labels ((h4 u).1 hu) .refl l hl
      exact (hc k l j hk hkj).resolve_right hne
    refine H.over hN (fun l hl => ?_) hw (.inl .refl)
    rcases mem_copyPairs.1 hl with h | h
    · rcases (h5 l h).2 with h | ⟨n, m, hn, hm⟩
      · exact h
      · exact hN n l m hn hm
    · exact h.1

/-- **C69, difference** (`subtract`): the result is deterministic and accepts exactly the sequences that the
first transducer accepts and the second does not.  (An alphabet never holds the pair 0:0.) -/
theorem C69_subtract {F G : Fst} (hF : F.Honest) (hG : G.Honest) (he : ⟨0, 0⟩ ∉ F.pairs) :
    ∃ R, F.subtract G = some (some R) ∧ R.Honest ∧ R.deterministic = true ∧
      ∀ w, R.Takes w ↔ F.Takes w ∧ ¬ G.Takes w := by
  -- the first operand, perhaps with the dummy pair
  have hstart : ∃ F0 : Fst, (if F.pairs = [] then { F with pairs := insertPair F.pairs ⟨1, 1⟩ } else F) = F0 ∧
      F0.graph = F.graph ∧ F0.deterministic = F.deterministic ∧ F0.minimised = F.minimised ∧
      ∃ l ∈ F0.pairs, l ≠ ⟨0, 0⟩ := by
    by_cases hp : F.pairs = []
    · rw [if_pos hp]
      refine ⟨_, rfl, rfl, rfl, rfl, ⟨1, 1⟩, ?_, by decide⟩
      show _ ∈ insertPair F.pairs ⟨1, 1⟩
      rw [hp]
      decide
    · rw [if_neg hp]
      refine ⟨F, rfl, rfl, rfl, rfl, ?_⟩
      cases hc : F.pairs with
      | nil => exact absurd hc hp
      | cons l ls =>
        exact ⟨l, List.mem_cons_self .., fun h => he (by rw [hc, ← h]; exact List.mem_cons_self ..)⟩
  obtain ⟨F0, e0, g0, d0, m0, l0, hl0, hne0⟩ := hstart
  obtain ⟨ls, hls, hmem⟩ := arcLabels_ok (g := F0.graph) (g0 ▸ hF.closed)
  have hF1 : Fst.Honest { F0 with pairs := copyPairs F0.pairs ls } :=
    ⟨(by show F0.graph.Closed; rw [g0]; exact hF.closed),
      (by intro h; show F0.graph.Deterministic; rw [g0]; exact hF.deterministic (d0 ▸ h)),
      (by intro h; show F0.graph.Minimal; rw [g0]; exact hF.minimised (m0 ▸ h))⟩
  have hG1 : Fst.Honest { G with pairs := copyPairs G.pairs (copyPairs F0.pairs ls) } :=
    ⟨hG.closed, hG.deterministic, hG.minimised⟩
  have hnon : copyPairs G.pairs (copyPairs F0.pairs ls) ≠ [] := by
    intro h
    have : l0 ∈ copyPairs G.pairs (copyPairs F0.pairs ls) :=
      mem_copyPairs.2 (.inr ⟨mem_copyPairs.2 (.inl hl0), hne0⟩)
    rw [h] at this
    cases this
  obtain ⟨N, hN, hNh, hNt, _⟩ := C69_complement hG1 hnon
  obtain ⟨R, hR, hRh, hRd, hRt⟩ := C66_intersect hF1 hNh
  refine ⟨R, ?_, hRh, hRd, fun w => ?_⟩
  · unfold Fst.subtract
    rw [e0]
    unfold Fst.without Fst.completeAlphabet
    rw [hls]
    show (Fst.negate { G with pairs := copyPairs G.pairs (copyPairs F0.pairs ls) }).bind _ = _
    rw [hN]
    show Option.map _ (Fst.intersect _ _) = _
    rw [hR]
    rfl
  · have hFt : ∀ w, Fst.Takes { F0 with pairs := copyPairs F0.pairs ls } w ↔ F.Takes w := by
      intro w
      show F0.graph.Takes 0 w ↔ _
      rw [g0]
      rfl
    rw [hRt, hFt]
    constructor
    · rintro ⟨h1, h2⟩
      refine ⟨h1, (hNt w fun l hl => ?_).1 h2⟩
      obtain ⟨hne, n, m, hn, hm⟩ := takes_labels h1 .refl l hl
      refine ⟨mem_copyPairs.2 (.inr ⟨mem_copyPairs.2 (.inr ⟨(hmem l).2 ⟨n, m, ?_, ?_⟩, hne⟩), hne⟩), hne⟩
      · rw [g0]; exact hn
      · rw [g0]; exact hm
    · rintro ⟨h1, h2⟩
      refine ⟨h1, (hNt w fun l hl => ?_).2 h2⟩
      obtain ⟨hne, n, m, hn, hm⟩ := takes_labels h1 .refl l hl
      refine ⟨mem_copyPairs.2 (.inr ⟨mem_copyPairs.2 (.inr ⟨(hmem l).2 ⟨n, m, ?_, ?_⟩, hne⟩), hne⟩), hne⟩
      · rw [g0]; exact hn
      · rw [g0]; exact hm

/-- Cases: `demo` compared with itself and with `demo2`; what it accepts its complement does not; and it
without itself accepts nothing. -/
example : demo.equal demo = some true ∧ demo.equal demo2 = some false ∧
    (∃ R, demo.negate = some (some R) ∧ ¬ R.Takes [⟨2, 5⟩, ⟨4, 4⟩]) ∧
    (∃ R, demo.subtract demo = some (some R) ∧ ∀ w, ¬ R.Takes w) ∧
    ∃ R, demo.subtract demo2 = some (some R) ∧ R.Takes [⟨2, 5⟩, ⟨4, 4⟩] := by
  refine ⟨by decide +kernel, by decide +kernel, ?_, ?_, ?_⟩
  · obtain ⟨R, h, _, ht, _⟩ := C69_complement demo_honest (by decide)
    exact ⟨R, h, fun h' => (ht _ (by decide)).1 h' demo_takes⟩
  · obtain ⟨R, h, _, _, ht⟩ := C69_subtract demo_honest demo_honest (by decide)
    exact ⟨R, h, fun w h' => ((ht w).1 h').2 ((ht w).1 h').1⟩
  · obtain ⟨R, h, _, _, ht⟩ := C69_subtract demo_honest demo2_honest (by decide)
    refine ⟨R, h, (ht _).2 ⟨demo_takes, fun h' => ?_⟩⟩
    have hno : ∀ l k, l = ⟨2, 5⟩ ∨ l = ⟨0, 0⟩ → ¬ demo2.graph.Step 0 l k := by
      intro l k hl hk
      have h2 : (l, k) ∈ [((⟨5, 7⟩ : Label), 0), (⟨4, 4⟩, 0)] := hk
      rcases hl with rfl | rfl <;> simp at h2
    cases h' with
    | skip hs _ => exact hno _ _ (.inr rfl) hs
    | read _ hs _ => exact hno _ _ (.inl rfl) hs

end Hfst.Sfst
