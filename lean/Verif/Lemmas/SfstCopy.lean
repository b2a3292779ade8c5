import Verif.Lemmas.SfstBuild

/-!
# Copying a transducer, with other labels or without
-/

namespace Hfst.Sfst

theorem isEps_iff {l : Label} : l.isEps = true ↔ l = ⟨0, 0⟩ := by
  cases l with
  | mk a b =>
    simp only [Label.isEps, Bool.and_eq_true, beq_iff_eq, Label.mk.injEq]
    exact And.comm

theorem mem_iter {n : Node} {a : Label × Nat} : a ∈ n.iter ↔ a ∈ n.arcs := by
  unfold Node.iter Node.epsArcs Node.otherArcs
  rw [List.mem_append, List.mem_filter, List.mem_filter]
  cases h : a.1.isEps <;> simp

/-- What is accepted has no 0:0. -/
theorem Accepts.no_eps {K : Type} {step : K → Label → K → Prop} {fin : K → Prop} {k : K} {w : List Label}
    (h : Accepts step fin k w) : ∀ l ∈ w, l ≠ ⟨0, 0⟩ := by
  induction h with
  | stop _ => exact fun l h => by cases h
  | skip _ _ ih => exact ih
  | read hl _ _ ih =>
    intro l h
    rcases List.mem_cons.1 h with rfl | h
    · exact hl
    · exact ih l h

/-- Systems with the same steps and final states accept the same. -/
theorem Accepts.congr {K : Type} {step step' : K → Label → K → Prop} {fin fin' : K → Prop}
    (hs : ∀ k l k', step k l k' → step' k l k') (hf : ∀ k, fin k → fin' k) {k : K} {w : List Label}
    (h : Accepts step fin k w) : Accepts step' fin' k w := by
  induction h with
  | stop h => exact .stop (hf _ h)
  | skip h _ ih => exact .skip (hs _ _ _ h) ih
  | read hl h _ ih => exact .read hl (hs _ _ _ h) ih

/-- The arcs of a copy with labels changed by `f`. -/
def copySucc (g : Graph) (f : Label → Label) (n : Nat) : List (Label × Nat) :=
  (g.node n).iter.map (fun arc => (f arc.1, arc.2))

theorem mem_copySucc {g : Graph} {f : Label → Label} {n : Nat} {l : Label} {m : Nat} :
    (l, m) ∈ copySucc g f n ↔ ∃ l', (l', m) ∈ (g.node n).arcs ∧ l = f l' := by
  unfold copySucc
  rw [List.mem_map]
  constructor
  · rintro ⟨⟨l', m'⟩, ha, he⟩
    simp only [Prod.mk.injEq] at he
    exact ⟨l', he.2 ▸ mem_iter.1 ha, he.1.symm⟩
  · rintro ⟨l', ha, rfl⟩
    exact ⟨(l', m), mem_iter.2 ha, rfl⟩

/-- The sequence of changed labels, without those that became 0:0. -/
def image (f : Label → Label) (w : List Label) : List Label :=
  (w.map f).filter (fun l => l ≠ ⟨0, 0⟩)

/-- What a copy with changed labels accepts. -/
theorem copy_takes (g : Graph) (f : Label → Label) (hf : f ⟨0, 0⟩ = ⟨0, 0⟩) (n : Nat) (w : List Label) :
    KTakes (copySucc g f) (fun n => (g.node n).final) n w ↔ ∃ v, g.Takes n v ∧ w = image f v := by
  constructor
  · intro h
    unfold KTakes at h
    induction h with
    | stop hf => exact ⟨[], .stop hf, rfl⟩
    | skip hs _ ih =>
      obtain ⟨v, hv, rfl⟩ := ih
      obtain ⟨l', ha, he⟩ := mem_copySucc.1 hs
      by_cases hl : l' = ⟨0, 0⟩
      · subst hl
        exact ⟨v, .skip ha hv, rfl⟩
      · refine ⟨l' :: v, .read hl ha hv, ?_⟩
        simp [image, ← he]
    | read hl hs _ ih =>
      obtain ⟨v, hv, rfl⟩ := ih
      obtain ⟨l', ha, he⟩ := mem_copySucc.1 hs
      have hl' : l' ≠ ⟨0, 0⟩ := by
        rintro rfl
        exact hl (he.trans hf)
      refine ⟨l' :: v, .read hl' ha hv, ?_⟩
      subst he
      simp [image, hl]
  · rintro ⟨v, hv, rfl⟩
    unfold Graph.Takes at hv
    induction hv with
    | stop hf => exact .stop hf
    | skip hs _ ih => exact .skip (mem_copySucc.2 ⟨_, hs, hf.symm⟩) ih
    | @read k k' l w hl hs _ ih =>
      by_cases hl' : f l = ⟨0, 0⟩
      · have : image f (l :: w) = image f w := by simp [image, hl']
        rw [this]
        exact .skip (mem_copySucc.2 ⟨_, hs, hl'.symm⟩) ih
      · have : image f (l :: w) = f l :: image f w := by simp [image, hl']
        rw [this]
        exact .read hl' (mem_copySucc.2 ⟨_, hs, rfl⟩) ih

/-- The nodes of a closed graph are all keys there are. -/
theorem copySucc_range {g : Graph} (hg : g.Closed) (f : Label → Label) :
    ∀ k ∈ List.range g.size, ∀ a ∈ copySucc g f k, a.2 ∈ List.range g.size := by
  intro k hk a ha
  obtain ⟨l', h, _⟩ := mem_copySucc (l := a.1) (m := a.2) |>.1 ha
  exact List.mem_range.2 (hg.2 k (List.mem_range.1 hk) (l', a.2) h)

/-- **Copying from the root.** -/
theorem copy_built {g : Graph} (hg : g.Closed) (f : Label → Label) (late : Bool) :
    ∃ b, explore late (copySucc g f) (fun n => (g.node n).final) (g.size + 1) 0 0
      ⟨Graph.fresh, assign (fun _ => none) 0 0⟩ = some b ∧
      Built (copySucc g f) (fun n => (g.node n).final) 0 0 Graph.fresh b :=
  explore_built late (copySucc_range hg f) (List.mem_range.2 hg.1) (by simp) Nat.zero_lt_one rfl

/-- **Copying into another transducer.** -/
theorem copyNodes_built {g : Graph} (hg : g.Closed) (f : Label → Label) (a : Graph) :
    ∃ b, copyNodes g f 0 a = some (a.size, b.graph) ∧
      Built (copySucc g f) (fun n => (g.node n).final) 0 a.size a.newNode b := by
  obtain ⟨b, hb, hB⟩ := explore_built (a := a.newNode) (n0 := a.size) (succ := copySucc g f)
    (final := fun n => (g.node n).final) true
    (copySucc_range hg f) (List.mem_range.2 hg.1) (f := g.size + 1) (by simp) (Nat.lt_succ_self _)
    (by rw [node_newNode, if_pos rfl]; rfl)
  exact ⟨b, by
    show Option.map _ (explore true (copySucc g f) _ _ _ _ _) = _
    rw [hb]; rfl, hB⟩

theorem image_id {w : List Label} (h : ∀ l ∈ w, l ≠ ⟨0, 0⟩) : image id w = w := by
  unfold image
  rw [List.map_id, List.filter_eq_self]
  intro l hl
  simp [h l hl]

theorem copy_takes_id (g : Graph) (n : Nat) (w : List Label) :
    KTakes (copySucc g id) (fun n => (g.node n).final) n w ↔ g.Takes n w := by
  rw [copy_takes g id rfl]
  constructor
  · rintro ⟨v, hv, rfl⟩
    rw [image_id hv.no_eps]
    exact hv
  · intro h
    exact ⟨w, h, (image_id h.no_eps).symm⟩

/-- Reaching among the keys of a copy is reaching in the graph. -/
theorem kreach_copy {g : Graph} {f : Label → Label} {n m : Nat} (h : KReach (copySucc g f) n m) :
    g.Reach n m := by
  induction h with
  | refl => exact .refl
  | step hs _ ih =>
    obtain ⟨l', ha, _⟩ := mem_copySucc.1 hs
    exact .step ha ih

theorem iter_of_no_eps {nd : Node} (h : ∀ a ∈ nd.arcs, a.1 ≠ ⟨0, 0⟩) : nd.iter = nd.arcs := by
  have h1 : nd.epsArcs = [] := by
    unfold Node.epsArcs
    rw [List.filter_eq_nil_iff]
    intro a ha h'
    exact h a ha (isEps_iff.1 h')
  have h2 : nd.otherArcs = nd.arcs := by
    unfold Node.otherArcs
    rw [List.filter_eq_self]
    intro a ha
    cases he : a.1.isEps with
    | false => rfl
    | true => exact absurd (isEps_iff.1 he) (h a ha)
  unfold Node.iter
  rw [h1, h2]
  rfl

/-- A copy of a deterministic transducer, with labels changed one to one, is deterministic. -/
theorem copy_deterministic {g : Graph} {f : Label → Label} (hinj : ∀ l l', f l = f l' → l = l')
    (hf : f ⟨0, 0⟩ = ⟨0, 0⟩) {a : Graph} {b : Build Nat}
    (hB : Built (copySucc g f) (fun n => (g.node n).final) 0 0 a b) (hd : g.Deterministic) :
    b.graph.Deterministic := by
  apply hB.deterministic
  intro k hk
  obtain ⟨h1, h2⟩ := hd k (kreach_copy hk)
  constructor
  · intro c hc he
    obtain ⟨l', ha, hl⟩ := mem_copySucc (l := c.1) (m := c.2) |>.1 hc
    apply h1 _ ha
    apply hinj
    show f l' = f ⟨0, 0⟩
    rw [hf, ← hl, he]
  · unfold copySucc
    rw [iter_of_no_eps h1, List.map_map]
    have : (fun c : Label × Nat => c.1) ∘ (fun arc : Label × Nat => (f arc.1, arc.2)) =
        f ∘ (fun c => c.1) := rfl
    rw [this, ← List.map_map]
    exact List.Pairwise.map f (fun x y hxy he => hxy (hinj _ _ he)) h2

end Hfst.Sfst
