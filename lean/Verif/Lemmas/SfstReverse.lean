import Verif.Lemmas.SfstVisit
import Verif.Lemmas.SfstCopy

/-!
# The reversal of an SFST transducer
-/

namespace Hfst.Sfst

/-! ## Paths -/

/-- A path from one node to another that reads a sequence of labels. -/
inductive Graph.Path (g : Graph) : Nat → List Label → Nat → Prop
  | nil {n : Nat} : Graph.Path g n [] n
  | skip {n m p : Nat} {w : List Label} : g.Step n ⟨0, 0⟩ m → Graph.Path g m w p → Graph.Path g n w p
  | read {n m p : Nat} {l : Label} {w : List Label} :
      l ≠ ⟨0, 0⟩ → g.Step n l m → Graph.Path g m w p → Graph.Path g n (l :: w) p

theorem takes_iff_path {g : Graph} {n : Nat} {w : List Label} :
    g.Takes n w ↔ ∃ m, g.Path n w m ∧ (g.node m).final = true := by
  constructor
  · intro h
    unfold Graph.Takes at h
    induction h with
    | stop hf => exact ⟨_, .nil, hf⟩
    | skip hs _ ih => obtain ⟨m, hp, hf⟩ := ih; exact ⟨m, .skip hs hp, hf⟩
    | read hl hs _ ih => obtain ⟨m, hp, hf⟩ := ih; exact ⟨m, .read hl hs hp, hf⟩
  · rintro ⟨m, hp, hf⟩
    induction hp with
    | nil => exact .stop hf
    | skip hs _ ih => exact .skip hs (ih hf)
    | read hl hs _ ih => exact .read hl hs (ih hf)

theorem Graph.Path.trans {g : Graph} {n m p : Nat} {u v : List Label} (h : g.Path n u m)
    (h' : g.Path m v p) : g.Path n (u ++ v) p := by
  induction h with
  | nil => exact h'
  | skip hs _ ih => exact .skip hs (ih h')
  | read hl hs _ ih => exact .read hl hs (ih h')

theorem Graph.Path.reach {g : Graph} {n m : Nat} {w : List Label} (h : g.Path n w m) : g.Reach n m := by
  induction h with
  | nil => exact .refl
  | skip hs _ ih => exact .step hs ih
  | read hl hs _ ih => exact .step hs ih

theorem Graph.Reach.path {g : Graph} {n m : Nat} (h : g.Reach n m) : ∃ w, g.Path n w m := by
  induction h with
  | refl => exact ⟨[], .nil⟩
  | @step n m p l hs _ ih =>
    obtain ⟨w, hw⟩ := ih
    by_cases hl : l = ⟨0, 0⟩
    · exact ⟨w, .skip (hl ▸ hs) hw⟩
    · exact ⟨l :: w, .read hl hs hw⟩

theorem Graph.Reach.trans {g : Graph} {n m p : Nat} (h : g.Reach n m) (h' : g.Reach m p) : g.Reach n p := by
  induction h with
  | refl => exact h'
  | step hs _ ih => exact .step hs (ih h')

theorem Graph.Closed.reach {g : Graph} (hg : g.Closed) {n m : Nat} (h : g.Reach n m) (hn : n < g.size) :
    m < g.size := by
  induction h with
  | refl => exact hn
  | @step n m p l hs _ ih => exact ih (hg.2 n hn (l, m) hs)

/-! ## The invariant -/

/-- What holds whenever `reverse_node` is called. -/
structure RevOk (b : Build Nat) : Prop where
  pos : 0 < b.graph.size
  low : ∀ k m, b.map k = some m → 0 < m ∧ m < b.graph.size
  inj : ∀ k k' m, b.map k = some m → b.map k' = some m → k = k'
  above : ∀ j, b.graph.size ≤ j → b.graph.node j = Node.init

/-- The arcs due to the old nodes that `new` holds of: from the root to the new nodes of final ones, and
the reversed arcs. -/
def RevArcs (g : Graph) (map : Nat → Option Nat) (new : Nat → Prop) (j : Nat) (l : Label) (m : Nat) : Prop :=
  ∃ k, new k ∧ map k = some m ∧
    ((j = 0 ∧ l = ⟨0, 0⟩ ∧ (g.node k).final = true) ∨ ∃ t, (l, t) ∈ (g.node k).arcs ∧ map t = some j)

/-- What a call of `reverse_node` does; `extra` are arcs added besides. -/
structure Reversed (g : Graph) (roots : Nat → Prop) (extra : (Nat → Option Nat) → Nat → Label → Nat → Prop)
    (b b' : Build Nat) : Prop where
  ok : RevOk b'
  grows : b.graph.size ≤ b'.graph.size
  keeps : ∀ k m, b.map k = some m → b'.map k = some m
  new : ∀ k m, b'.map k = some m → b.map k = none → b.graph.size ≤ m
  onto : ∀ j, b.graph.size ≤ j → j < b'.graph.size → ∃ k, b'.map k = some j
  fin : ∀ j, (b'.graph.node j).final = (b.graph.node j).final
  arcs : ∀ j l m, (l, m) ∈ (b'.graph.node j).arcs ↔
    (l, m) ∈ (b.graph.node j).arcs ∨ extra b'.map j l m ∨
    RevArcs g b'.map (fun k => b.map k = none) j l m
  reached : ∀ k m, b'.map k = some m → b.map k = none → ∃ r, roots r ∧ g.Reach r k
  closed : ∀ k m, b'.map k = some m → b.map k = none → ∀ a ∈ (g.node k).arcs, b'.map a.2 ≠ none
  has : ∀ r, roots r → b'.map r ≠ none

theorem RevOk.addArc {b : Build Nat} (h : RevOk b) {t : Nat} (ht : t < b.graph.size) (l : Label) (m : Nat) :
    RevOk { b with graph := b.graph.addArc t l m } where
  pos := h.pos
  low := h.low
  inj := h.inj
  above := fun j hj => by
    show (b.graph.addArc t l m).node j = _
    have : j ≠ t := by
      have : b.graph.size ≤ j := hj
      omega
    rw [node_addArc, if_neg this]
    exact h.above j hj

/-- One round of the loop of `reverse_node`. -/
def revArc (g : Graph) (f m : Nat) (b' : Build Nat) (arc : Label × Nat) : Option (Build Nat) :=
  (reverseNode g f arc.2 b').bind fun b2 =>
    (b2.map arc.2).map fun t => { b2 with graph := b2.graph.addArc t arc.1 m }

theorem foldlM_reversed {g : Graph} {f m : Nat}
    (ih : ∀ n (b : Build Nat), n < g.size → RevOk b → waiting (List.range g.size) b < f →
      ∃ b', reverseNode g f n b = some b' ∧ Reversed g (fun r => r = n) (fun _ _ _ _ => False) b b')
    (L : List (Label × Nat)) :
    ∀ (b : Build Nat), (∀ a ∈ L, a.2 < g.size) → RevOk b → waiting (List.range g.size) b < f →
      ∃ b', L.foldlM (revArc g f m) b = some b' ∧
        Reversed g (fun r => ∃ a ∈ L, a.2 = r)
          (fun map j l m' => m' = m ∧ ∃ a ∈ L, a.1 = l ∧ map a.2 = some j) b b' := by
  induction L with
  | nil =>
    intro b _ hb _
    refine ⟨b, rfl, hb, Nat.le_refl _, fun _ _ h => h, fun k m h h' => ?_, fun j h h' => by omega,
      fun _ => rfl, fun j l m' => ⟨Or.inl, ?_⟩, fun k m h h' => ?_, fun k m h h' => ?_, ?_⟩
    · rw [h'] at h; cases h
    · rintro (h | ⟨_, a, ha, _⟩ | ⟨k, h, h', _⟩)
      · exact h
      · cases ha
      · rw [h] at h'; cases h'
    · rw [h'] at h; cases h
    · rw [h'] at h; cases h
    · rintro r ⟨a, ha, _⟩; cases ha
  | cons a L ihL =>
    intro b hL hb hw
    obtain ⟨b1, h1, H1⟩ := ih a.2 b (hL a (List.mem_cons_self ..)) hb hw
    have hhas := H1.has a.2 rfl
    cases ht : b1.map a.2 with
    | none => exact absurd ht hhas
    | some t =>
    have htlt := (H1.ok.low _ _ ht).2
    obtain ⟨b3, h3, H3⟩ := ihL { b1 with graph := b1.graph.addArc t a.1 m }
      (fun c hc => hL c (List.mem_cons_of_mem _ hc)) (H1.ok.addArc htlt _ _)
      (Nat.lt_of_le_of_lt (waiting_le (b := b) H1.keeps) hw)
    have hkeep : ∀ k m, b1.map k = some m → b3.map k = some m := H3.keeps
    refine ⟨b3, ?_, H3.ok, Nat.le_trans H1.grows H3.grows, fun k m h => hkeep _ _ (H1.keeps _ _ h), ?_, ?_,
      ?_, ?_, ?_, ?_, ?_⟩
    · rw [List.foldlM_cons]
      show (revArc g f m b a).bind _ = _
      unfold revArc
      rw [h1]
      show (Option.map _ (b1.map a.2)).bind _ = _
      rw [ht]
      exact h3
    · intro k m' h h'
      cases hk : b1.map k with
      | none => exact Nat.le_trans H1.grows (H3.new k m' h hk)
      | some m2 =>
        have := hkeep _ _ hk
        rw [this] at h
        cases h
        exact H1.new k m' hk h'
    · intro j hj hj'
      by_cases hj1 : j < b1.graph.size
      · obtain ⟨k, hk⟩ := H1.onto j hj hj1
        exact ⟨k, hkeep _ _ hk⟩
      · exact H3.onto j (Nat.le_of_not_lt hj1) hj'
    · intro j
      rw [H3.fin j]
      show ((b1.graph.addArc t a.1 m).node j).final = _
      rw [node_addArc, ← H1.fin j]
      split <;> rfl
    · intro j l m'
      rw [H3.arcs j l m']
      have hadd : (l, m') ∈ ((b1.graph.addArc t a.1 m).node j).arcs ↔
          (l, m') ∈ (b1.graph.node j).arcs ∨ (j = t ∧ l = a.1 ∧ m' = m) := by
        rw [node_addArc]
        by_cases hjt : j = t
        · rw [if_pos hjt]
          constructor
          · intro h
            rcases List.mem_cons.1 h with h | h
            · cases h; exact Or.inr ⟨hjt, rfl, rfl⟩
            · exact Or.inl h
          · rintro (h | ⟨_, rfl, rfl⟩)
            · exact List.mem_cons_of_mem _ h
            · exact List.mem_cons_self ..
        · rw [if_neg hjt]
          exact ⟨Or.inl, fun h => h.elim id (fun h => absurd h.1 hjt)⟩
      show ((l, m') ∈ ((b1.graph.addArc t a.1 m).node j).arcs ∨ _ ∨ _) ↔ _
      rw [hadd, H1.arcs j l m']
      constructor
      · rintro (((h | h | ⟨k, hk, hm, h⟩) | ⟨rfl, rfl, rfl⟩) | ⟨rfl, c, hc, rfl, hcj⟩ | ⟨k, hk, hm, h⟩)
        · exact Or.inl h
        · exact h.elim
        · refine Or.inr (Or.inr ⟨k, hk, hkeep _ _ hm, ?_⟩)
          rcases h with h | ⟨t', ht', htj⟩
          · exact Or.inl h
          · exact Or.inr ⟨t', ht', hkeep _ _ htj⟩
        · exact Or.inr (Or.inl ⟨rfl, a, List.mem_cons_self .., rfl, hkeep _ _ ht⟩)
        · exact Or.inr (Or.inl ⟨rfl, c, List.mem_cons_of_mem _ hc, rfl, hcj⟩)
        · refine Or.inr (Or.inr ⟨k, ?_, hm, h⟩)
          cases hbk : b.map k with
          | none => exact hbk
          | some x =>
            have : b1.map k = none := hk
            rw [H1.keeps _ _ hbk] at this
            cases this
      · rintro (h | ⟨rfl, c, hc, rfl, hcj⟩ | ⟨k, hk, hm, h⟩)
        · exact Or.inl (Or.inl (Or.inl h))
        · rcases List.mem_cons.1 hc with rfl | hc
          · rw [hkeep _ _ ht] at hcj
            cases hcj
            exact Or.inl (Or.inr ⟨rfl, rfl, rfl⟩)
          · exact Or.inr (Or.inl ⟨rfl, c, hc, rfl, hcj⟩)
        · cases hb1 : b1.map k with
          | none => exact Or.inr (Or.inr ⟨k, hb1, hm, h⟩)
          | some x =>
            have := hkeep _ _ hb1
            rw [this] at hm
            cases hm
            refine Or.inl (Or.inl (Or.inr (Or.inr ⟨k, hk, hb1, ?_⟩)))
            rcases h with h | ⟨t', ht', htj⟩
            · exact Or.inl h
            · refine Or.inr ⟨t', ht', ?_⟩
              cases hbt : b1.map t' with
              | none => exact absurd hbt (H1.closed k _ hb1 hk (l, t') ht')
              | some y =>
                have := hkeep _ _ hbt
                rw [this] at htj
                exact htj
    · intro k m' h h'
      cases hk : b1.map k with
      | none =>
        obtain ⟨r, ⟨c, hc, hr⟩, hreach⟩ := H3.reached k m' h hk
        exact ⟨r, ⟨c, List.mem_cons_of_mem _ hc, hr⟩, hreach⟩
      | some m2 =>
        obtain ⟨r, hr, hreach⟩ := H1.reached k m2 hk h'
        exact ⟨r, ⟨a, List.mem_cons_self .., hr.symm⟩, hreach⟩
    · intro k m' h h' c hc
      cases hk : b1.map k with
      | none => exact H3.closed k m' h hk c hc
      | some m2 =>
        have := H1.closed k m2 hk h' c hc
        cases hcm : b1.map c.2 with
        | none => exact absurd hcm this
        | some x => rw [hkeep _ _ hcm]; intro h; cases h
    · rintro r ⟨c, hc, rfl⟩
      rcases List.mem_cons.1 hc with rfl | hc
      · rw [hkeep _ _ ht]; intro h; cases h
      · exact H3.has _ ⟨c, hc, rfl⟩

theorem reverseNode_reversed {g : Graph} (hg : g.Closed) (f : Nat) :
    ∀ n (b : Build Nat), n < g.size → RevOk b → waiting (List.range g.size) b < f →
      ∃ b', reverseNode g f n b = some b' ∧ Reversed g (fun r => r = n) (fun _ _ _ _ => False) b b' := by
  induction f with
  | zero => intro n b _ _ h; exact absurd h (Nat.not_lt_zero _)
  | succ f ih =>
    intro n b hn hb hw
    cases hm : b.map n with
    | some m0 =>
      refine ⟨b, ?_, hb, Nat.le_refl _, fun _ _ h => h, fun k m h h' => ?_, fun j h h' => by omega,
        fun _ => rfl, fun j l m' => ⟨Or.inl, ?_⟩, fun k m h h' => ?_, fun k m h h' => ?_, ?_⟩
      · unfold reverseNode
        rw [hm]
      · rw [h'] at h; cases h
      · rintro (h | h | ⟨k, h, h', _⟩)
        · exact h
        · exact h.elim
        · rw [h] at h'; cases h'
      · rw [h'] at h; cases h
      · rw [h'] at h; cases h
      · rintro r rfl; rw [hm]; intro h; cases h
    | none =>
      let m := b.graph.size
      let g2 := if (g.node n).final then b.graph.newNode.addArc 0 Label.eps m else b.graph.newNode
      have hg2s : g2.size = b.graph.size + 1 := by
        show (if _ then _ else _ : Graph).size = _
        split <;> rfl
      have hnew : ∀ j, b.graph.newNode.node j = b.graph.node j := by
        intro j
        rw [node_newNode]
        split
        · rename_i h
          rw [hb.above j (Nat.le_of_eq h.symm)]
        · rfl
      have hg2f : ∀ j, (g2.node j).final = (b.graph.node j).final := by
        intro j
        show ((if _ then _ else _ : Graph).node j).final = _
        split
        · rw [node_addArc, hnew]
          split <;> rfl
        · rw [hnew]
      have hg2a : ∀ j l m', (l, m') ∈ (g2.node j).arcs ↔ (l, m') ∈ (b.graph.node j).arcs ∨
          (j = 0 ∧ l = ⟨0, 0⟩ ∧ m' = m ∧ (g.node n).final = true) := by
        intro j l m'
        show _ ∈ ((if _ then _ else _ : Graph).node j).arcs ↔ _
        by_cases hf : (g.node n).final = true
        · rw [if_pos hf, node_addArc, hnew]
          by_cases hj : j = 0
          · rw [if_pos hj]
            constructor
            · intro h
              rcases List.mem_cons.1 h with h | h
              · cases h; exact Or.inr ⟨hj, rfl, rfl, hf⟩
              · exact Or.inl h
            · rintro (h | ⟨_, rfl, rfl, _⟩)
              · exact List.mem_cons_of_mem _ h
              · exact List.mem_cons_self ..
          · rw [if_neg hj]
            exact ⟨Or.inl, fun h => h.elim id (fun h => absurd h.1 hj)⟩
        · rw [if_neg hf, hnew]
          exact ⟨Or.inl, fun h => h.elim id (fun h => absurd h.2.2.2 hf)⟩
      have hg2above : ∀ j, b.graph.size + 1 ≤ j → g2.node j = Node.init := by
        intro j hj
        show (if _ then _ else _ : Graph).node j = _
        split
        · rw [node_addArc, if_neg (by omega), hnew, hb.above j (by omega)]
        · rw [hnew, hb.above j (by omega)]
      have hlow : ∀ k m, b.map k = some m → m < b.graph.size := fun k m h => (hb.low k m h).2
      have hb1 : RevOk ⟨g2, assign b.map n m⟩ := by
        refine ⟨by show 0 < g2.size; omega, fun k m' h => ?_, fun k k' m' h h' => ?_,
          fun j hj => hg2above j (hg2s ▸ hj)⟩
        · have h : assign b.map n m k = some m' := h
          show 0 < m' ∧ m' < g2.size
          by_cases hk : k = n
          · rw [hk, assign_same] at h
            cases h
            exact ⟨hb.pos, by rw [hg2s]; exact Nat.lt_succ_self _⟩
          · rw [assign_other hk] at h
            have := hb.low k m' h
            exact ⟨this.1, by omega⟩
        · have h : assign b.map n m k = some m' := h
          have h' : assign b.map n m k' = some m' := h'
          by_cases hk : k = n
          · by_cases hk' : k' = n
            · rw [hk, hk']
            · rw [hk, assign_same] at h
              rw [assign_other hk'] at h'
              cases h
              exact absurd (hlow _ _ h') (Nat.lt_irrefl _)
          · by_cases hk' : k' = n
            · rw [hk', assign_same] at h'
              rw [assign_other hk] at h
              cases h'
              exact absurd (hlow _ _ h) (Nat.lt_irrefl _)
            · rw [assign_other hk] at h
              rw [assign_other hk'] at h'
              exact hb.inj _ _ _ h h'
      have hkeep1 : ∀ k m', b.map k = some m' → assign b.map n m k = some m' := by
        intro k m' h
        have : k ≠ n := by rintro rfl; rw [hm] at h; cases h
        rw [assign_other this]
        exact h
      have hw1 : waiting (List.range g.size) (⟨g2, assign b.map n m⟩ : Build Nat) < f := by
        have := waiting_lt (U := List.range g.size) (b := b) (b' := ⟨g2, assign b.map n m⟩) (k := n)
          (List.mem_range.2 hn) hkeep1 hm (by
            show assign b.map n m n ≠ none
            rw [assign_same]; intro h; cases h)
        omega
      obtain ⟨b', h', H⟩ := foldlM_reversed (m := m) ih (g.node n).iter ⟨g2, assign b.map n m⟩
        (fun a ha => hg.2 n hn a (mem_iter.1 ha)) hb1 hw1
      have hnm : b'.map n = some m := H.keeps n m (assign_same b.map n m)
      have hHg : b.graph.size + 1 ≤ b'.graph.size := by
        have : g2.size ≤ b'.graph.size := H.grows
        omega
      have hsplit : ∀ k, b.map k = none → k ≠ n → assign b.map n m k = none := by
        intro k hk hkn
        rw [assign_other hkn]; exact hk
      refine ⟨b', ?_, H.ok, by omega, fun k m' h => H.keeps _ _ (hkeep1 _ _ h), ?_, ?_, ?_, ?_, ?_, ?_, ?_⟩
      · unfold reverseNode
        rw [hm]
        exact h'
      · intro k m' h hk
        by_cases hkn : k = n
        · rw [hkn, hnm] at h; cases h; exact Nat.le_refl _
        · have : g2.size ≤ m' := H.new k m' h (hsplit k hk hkn)
          omega
      · intro j hj hj'
        by_cases hjm : j = m
        · exact ⟨n, hjm ▸ hnm⟩
        · refine H.onto j ?_ hj'
          show g2.size ≤ j
          have : j ≠ b.graph.size := hjm
          omega
      · intro j
        rw [H.fin j]
        exact hg2f j
      · intro j l m'
        rw [H.arcs j l m']
        show ((l, m') ∈ (g2.node j).arcs ∨ _ ∨ _) ↔ _
        rw [hg2a]
        constructor
        · rintro ((h | ⟨rfl, rfl, rfl, hf⟩) | ⟨rfl, a, ha, rfl, haj⟩ | ⟨k, hk, hkm, h⟩)
          · exact Or.inl h
          · exact Or.inr (Or.inr ⟨n, hm, hnm, Or.inl ⟨rfl, rfl, hf⟩⟩)
          · exact Or.inr (Or.inr ⟨n, hm, hnm, Or.inr ⟨a.2, mem_iter.1 ha, haj⟩⟩)
          · refine Or.inr (Or.inr ⟨k, ?_, hkm, h⟩)
            have hk : assign b.map n m k = none := hk
            by_cases hkn : k = n
            · rw [hkn, assign_same] at hk; cases hk
            · rwa [assign_other hkn] at hk
        · rintro (h | h | ⟨k, hk, hkm, h⟩)
          · exact Or.inl (Or.inl h)
          · exact h.elim
          · by_cases hkn : k = n
            · subst hkn
              rw [hnm] at hkm
              cases hkm
              rcases h with ⟨rfl, rfl, hf⟩ | ⟨t, ht, htj⟩
              · exact Or.inl (Or.inr ⟨rfl, rfl, rfl, hf⟩)
              · exact Or.inr (Or.inl ⟨rfl, (l, t), mem_iter.2 ht, rfl, htj⟩)
            · exact Or.inr (Or.inr ⟨k, hsplit k hk hkn, hkm, h⟩)
      · intro k m' h hk
        by_cases hkn : k = n
        · exact ⟨n, rfl, hkn ▸ .refl⟩
        · obtain ⟨r, ⟨a, ha, rfl⟩, hreach⟩ := H.reached k m' h (hsplit k hk hkn)
          exact ⟨n, rfl, .step (l := a.1) (m := a.2) (mem_iter.1 ha) hreach⟩
      · intro k m' h hk a ha
        by_cases hkn : k = n
        · subst hkn
          exact H.has _ ⟨a, mem_iter.2 ha, rfl⟩
        · exact H.closed k m' h (hsplit k hk hkn) a ha
      · rintro r rfl
        rw [hnm]; intro h; cases h

/-! ## The result -/

/-- The reversed graph `h` of `g`: the new node of `k` is `map k`. -/
structure IsReverse (g h : Graph) (map : Nat → Option Nat) : Prop where
  closed : h.Closed
  low : ∀ k m, map k = some m → 0 < m ∧ m < h.size
  inj : ∀ k k' m, map k = some m → map k' = some m → k = k'
  onto : ∀ j, 0 < j → j < h.size → ∃ k, map k = some j
  dom : ∀ k, map k ≠ none ↔ g.Reach 0 k
  fin : ∀ j, (h.node j).final = true ↔ map 0 = some j
  arcs : ∀ j l m, h.Step j l m ↔ ∃ k, map k = some m ∧
    ((j = 0 ∧ l = ⟨0, 0⟩ ∧ (g.node k).final = true) ∨ ∃ t, g.Step k l t ∧ map t = some j)

theorem reverse_isReverse {F : Fst} (hF : F.graph.Closed) (ca : Bool) :
    ∃ R map, F.reverse ca = some R ∧ R.deterministic = false ∧ R.minimised = false ∧
      IsReverse F.graph R.graph map := by
  have hok : RevOk ⟨Graph.fresh, fun _ => none⟩ :=
    ⟨Nat.zero_lt_one, fun _ _ h => (by cases h), fun _ _ _ h => (by cases h), fun _ _ => rfl⟩
  have hw : waiting (List.range F.graph.size) (⟨Graph.fresh, fun _ => none⟩ : Build Nat) <
      F.graph.size + 1 := by
    have : waiting (List.range F.graph.size) (⟨Graph.fresh, fun _ => none⟩ : Build Nat) ≤
        (List.range F.graph.size).length := List.length_filter_le ..
    rw [List.length_range] at this
    omega
  obtain ⟨b, hb, H⟩ := reverseNode_reversed hF (F.graph.size + 1) 0 _ hF.1 hok hw
  cases hr : b.map 0 with
  | none => exact absurd hr (H.has 0 rfl)
  | some r =>
  refine ⟨⟨b.graph.setFinal r true, false, false, if ca then copyPairs [] F.pairs else []⟩, b.map, ?_,
    rfl, rfl, ?_⟩
  · unfold Fst.reverse
    rw [hb]
    show Option.map _ (b.map 0) = _
    rw [hr]
    rfl
  have harcs : ∀ j l m, (b.graph.setFinal r true).Step j l m ↔ ∃ k, b.map k = some m ∧
    ((j = 0 ∧ l = ⟨0, 0⟩ ∧ (F.graph.node k).final = true) ∨ ∃ t, F.graph.Step k l t ∧ b.map t = some j) := by
    intro j l m
    have : (b.graph.setFinal r true).Step j l m ↔ (l, m) ∈ (b.graph.node j).arcs := by
      unfold Graph.Step
      rw [node_setFinal]
      split <;> exact Iff.rfl
    rw [this, H.arcs j l m]
    constructor
    · rintro (h | h | ⟨k, _, hk, h⟩)
      · cases h
      · exact h.elim
      · exact ⟨k, hk, h⟩
    · rintro ⟨k, hk, h⟩
      exact Or.inr (Or.inr ⟨k, rfl, hk, h⟩)
  refine ⟨⟨H.ok.pos, fun n _ a ha => ?_⟩, fun k m h => H.ok.low k m h, H.ok.inj, fun j hj hj' => ?_,
    fun k => ⟨fun h => ?_, fun h => ?_⟩, fun j => ?_, harcs⟩
  · obtain ⟨k, hk, _⟩ := (harcs n a.1 a.2).1 ha
    exact (H.ok.low k _ hk).2
  · exact H.onto j hj hj'
  · cases hk : b.map k with
    | none => exact absurd hk h
    | some m =>
      obtain ⟨r', rfl, hreach⟩ := H.reached k m hk rfl
      exact hreach
  · have : ∀ n k, F.graph.Reach n k → b.map n ≠ none → b.map k ≠ none := by
      clear h
      intro n k hn
      induction hn with
      | refl => exact id
      | @step n m p l hs _ ih =>
        intro hnn
        cases hn : b.map n with
        | none => exact absurd hn hnn
        | some x => exact ih (H.closed n x hn rfl (l, m) hs)
    exact this 0 k h (by rw [hr]; intro h; cases h)
  · rw [node_setFinal]
    have hf : (b.graph.node j).final = false := H.fin j
    by_cases hj : j = r
    · rw [if_pos hj, hj]
      exact ⟨fun _ => hr, fun _ => rfl⟩
    · rw [if_neg hj, hf]
      constructor
      · intro h; cases h
      · intro h
        rw [hr] at h
        cases h
        exact absurd rfl hj

theorem IsReverse.path {g h : Graph} {map : Nat → Option Nat} (H : IsReverse g h map) {t k m j : Nat}
    (ht : map t = some j) (hk : map k = some m) (w : List Label) :
    h.Path j w m ↔ g.Path k w.reverse t := by
  constructor
  · intro hp
    induction hp generalizing t with
    | nil =>
      rw [H.inj _ _ _ ht hk]
      exact .nil
    | @skip n n' p w hs _ ih =>
      obtain ⟨k', hk', hh⟩ := (H.arcs _ _ _).1 hs
      rcases hh with ⟨h0, _⟩ | ⟨t', hst, ht'⟩
      · have := (H.low _ _ ht).1
        omega
      · have := H.inj _ _ _ ht' ht
        subst this
        have := (ih hk' hk).trans (Graph.Path.skip hst .nil)
        simpa using this
    | @read n n' p l w hl hs _ ih =>
      obtain ⟨k', hk', hh⟩ := (H.arcs _ _ _).1 hs
      rcases hh with ⟨h0, _⟩ | ⟨t', hst, ht'⟩
      · have := (H.low _ _ ht).1
        omega
      · have := H.inj _ _ _ ht' ht
        subst this
        have := (ih hk' hk).trans (Graph.Path.read hl hst .nil)
        simpa using this
  · intro hp
    generalize hv : w.reverse = v at hp
    have hw : w = v.reverse := by rw [← hv, List.reverse_reverse]
    subst hw
    clear hv
    induction hp generalizing m with
    | nil =>
      rw [ht] at hk
      cases hk
      exact .nil
    | @skip n n' p w hs hrest ih =>
      have hr : g.Reach 0 n := (H.dom n).1 (by rw [hk]; intro h; cases h)
      have hn' : map n' ≠ none := (H.dom n').2 (hr.trans (.step hs .refl))
      cases hn : map n' with
      | none => exact absurd hn hn'
      | some m' =>
        have hstep : h.Step m' ⟨0, 0⟩ m := (H.arcs _ _ _).2 ⟨n, hk, Or.inr ⟨n', hs, hn⟩⟩
        have := (ih ht hn).trans (Graph.Path.skip hstep .nil)
        simpa using this
    | @read n n' p l w hl hs hrest ih =>
      have hr : g.Reach 0 n := (H.dom n).1 (by rw [hk]; intro h; cases h)
      have hn' : map n' ≠ none := (H.dom n').2 (hr.trans (.step hs .refl))
      cases hn : map n' with
      | none => exact absurd hn hn'
      | some m' =>
        have hstep : h.Step m' l m := (H.arcs _ _ _).2 ⟨n, hk, Or.inr ⟨n', hs, hn⟩⟩
        have := (ih ht hn).trans (Graph.Path.read hl hstep .nil)
        simpa using this

/-- What is accepted from the new node of `t`: the reversed sequences that lead to `t`. -/
theorem IsReverse.takes_at {g h : Graph} {map : Nat → Option Nat} (H : IsReverse g h map) {t j : Nat}
    (ht : map t = some j) (w : List Label) : h.Takes j w ↔ g.Path 0 w.reverse t := by
  rw [takes_iff_path]
  constructor
  · rintro ⟨m, hp, hf⟩
    exact (H.path ht ((H.fin m).1 hf) w).1 hp
  · intro hp
    have h0 : map 0 ≠ none := (H.dom 0).2 .refl
    cases hr : map 0 with
    | none => exact absurd hr h0
    | some r => exact ⟨r, (H.path ht hr w).2 hp, (H.fin r).2 hr⟩

theorem IsReverse.takes {g h : Graph} {map : Nat → Option Nat} (H : IsReverse g h map) (w : List Label) :
    h.Takes 0 w ↔ g.Takes 0 w.reverse := by
  have h0 : map 0 ≠ none := (H.dom 0).2 .refl
  cases hr : map 0 with
  | none => exact absurd hr h0
  | some r =>
  have hrpos := (H.low 0 r hr).1
  constructor
  · intro h
    have hmap0 : ∀ t, map t ≠ some 0 := fun t ht => absurd (H.low t 0 ht).1 (Nat.lt_irrefl _)
    cases h with
    | stop hf =>
      have := (H.fin 0).1 hf
      rw [hr] at this
      cases this
      omega
    | skip hs hrest =>
      obtain ⟨k, hk, ⟨_, _, hf⟩ | ⟨t, _, ht⟩⟩ := (H.arcs _ _ _).1 hs
      · rw [takes_iff_path]
        exact ⟨k, (H.takes_at hk w).1 hrest, hf⟩
      · exact absurd ht (hmap0 t)
    | read hl hs hrest =>
      obtain ⟨k, hk, ⟨_, h0, _⟩ | ⟨t, _, ht⟩⟩ := (H.arcs _ _ _).1 hs
      · exact absurd h0 hl
      · exact absurd ht (hmap0 t)
  · intro h
    rw [takes_iff_path] at h
    obtain ⟨k, hp, hf⟩ := h
    have hk : map k ≠ none := (H.dom k).2 hp.reach
    cases hkm : map k with
    | none => exact absurd hkm hk
    | some m =>
      exact .skip (k' := m) ((H.arcs _ _ _).2 ⟨k, hkm, Or.inl ⟨rfl, rfl, hf⟩⟩) ((H.takes_at hkm w).2 hp)

end Hfst.Sfst
