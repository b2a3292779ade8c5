import Verif.Spec.Sfst

/-!
# The recursion that builds a transducer from keys

`explore` makes one node for each key reached, with exactly the arcs the keys tell.
-/

namespace Hfst.Sfst

theorem node_addArc (g : Graph) (n : Nat) (l : Label) (t j : Nat) :
    (g.addArc n l t).node j =
      if j = n then { g.node j with arcs := (l, t) :: (g.node j).arcs } else g.node j := rfl

theorem node_setFinal (g : Graph) (n : Nat) (b : Bool) (j : Nat) :
    (g.setFinal n b).node j = if j = n then { g.node j with final := b } else g.node j := rfl

theorem node_newNode (g : Graph) (j : Nat) :
    g.newNode.node j = if j = g.size then Node.init else g.node j := rfl

set_option linter.unusedSectionVars false

variable {K : Type} [DecidableEq K]

theorem assign_same (f : K → Option Nat) (k : K) (m : Nat) : assign f k m k = some m := by
  simp [assign]

theorem assign_other {f : K → Option Nat} {k k' : K} {m : Nat} (h : k' ≠ k) :
    assign f k m k' = f k' := by
  simp [assign, h]

/-- Keys have different nodes, all of them made. -/
structure Build.Ok (b : Build K) : Prop where
  low : ∀ k m, b.map k = some m → m < b.graph.size
  inj : ∀ k k' m, b.map k = some m → b.map k' = some m → k = k'

/-- The node of a key is as the key tells. -/
def Done (succ : K → List (Label × K)) (final : K → Bool) (b : Build K) (k : K) (m : Nat) : Prop :=
  (b.graph.node m).final = final k ∧
  (b.graph.node m).arcs.map (fun a => (a.1, some a.2)) =
    ((succ k).map (fun a => (a.1, b.map a.2))).reverse

/-- A key reached from another. -/
inductive KReach (succ : K → List (Label × K)) : K → K → Prop
  | refl {k : K} : KReach succ k k
  | step {k k' k'' : K} {l : Label} : (l, k') ∈ succ k → KReach succ k' k'' → KReach succ k k''

/-- What making the arcs `L` of node `n` does. -/
structure Linked (succ : K → List (Label × K)) (final : K → Bool) (n : Nat) (L : List (Label × K))
    (b b' : Build K) : Prop where
  ok : b'.Ok
  grows : b.graph.size ≤ b'.graph.size
  keeps : ∀ k m, b.map k = some m → b'.map k = some m
  fresh : ∀ k m, b'.map k = some m → b.map k = none → b.graph.size ≤ m
  others : ∀ j, j < b.graph.size → j ≠ n → b'.graph.node j = b.graph.node j
  fin : (b'.graph.node n).final = (b.graph.node n).final
  arcs : (b'.graph.node n).arcs.map (fun a => (a.1, some a.2)) =
    (L.map (fun a => (a.1, b'.map a.2))).reverse ++ (b.graph.node n).arcs.map (fun a => (a.1, some a.2))
  has : ∀ a ∈ L, b'.map a.2 ≠ none
  done : ∀ k m, b'.map k = some m → b.map k = none → Done succ final b' k m
  reached : ∀ k m, b'.map k = some m → b.map k = none → ∃ a ∈ L, KReach succ a.2 k
  onto : ∀ j, b.graph.size ≤ j → j < b'.graph.size → ∃ k, b'.map k = some j

/-- What making node `n` for key `k` does. -/
structure Explored (succ : K → List (Label × K)) (final : K → Bool) (k0 : K) (n : Nat)
    (b b' : Build K) : Prop where
  ok : b'.Ok
  grows : b.graph.size ≤ b'.graph.size
  keeps : ∀ k m, b.map k = some m → b'.map k = some m
  fresh : ∀ k m, b'.map k = some m → b.map k = none → b.graph.size ≤ m
  others : ∀ j, j < b.graph.size → j ≠ n → b'.graph.node j = b.graph.node j
  done : ∀ k m, b'.map k = some m → b.map k = none ∨ k = k0 → Done succ final b' k m
  has : ∀ a ∈ succ k0, b'.map a.2 ≠ none
  reached : ∀ k m, b'.map k = some m → b.map k = none → KReach succ k0 k
  onto : ∀ j, b.graph.size ≤ j → j < b'.graph.size → ∃ k, b'.map k = some j

/-- How many keys are still without a node. -/
def waiting (U : List K) (b : Build K) : Nat := (U.filter (fun k => (b.map k).isNone)).length

theorem filter_length_le {α : Type} {p q : α → Bool} {U : List α} (h : ∀ x ∈ U, p x = true → q x = true) :
    (U.filter p).length ≤ (U.filter q).length := by
  induction U with
  | nil => simp
  | cons x xs ih =>
    have ih' := ih (fun y hy => h y (List.mem_cons_of_mem _ hy))
    have hx := h x (List.mem_cons_self ..)
    cases hp : p x <;> cases hq : q x <;> simp [hp, hq]
    · exact ih'
    · omega
    · simp [hp, hq] at hx
    · exact ih'

theorem filter_length_lt {α : Type} {p q : α → Bool} {U : List α} {x : α} (hx : x ∈ U)
    (h : ∀ y ∈ U, p y = true → q y = true) (hp : p x = false) (hq : q x = true) :
    (U.filter p).length < (U.filter q).length := by
  induction U with
  | nil => cases hx
  | cons y ys ih =>
    have hle := filter_length_le (fun z hz => h z (List.mem_cons_of_mem _ hz)) (U := ys)
    have hy := h y (List.mem_cons_self ..)
    rcases List.mem_cons.1 hx with rfl | hx'
    · simp [hp, hq]; omega
    · have ih' := ih hx' (fun z hz => h z (List.mem_cons_of_mem _ hz))
      cases hpy : p y <;> cases hqy : q y <;> simp [hpy, hqy]
      · exact ih'
      · omega
      · simp [hpy, hqy] at hy
      · exact ih'

theorem waiting_le {U : List K} {b b' : Build K} (h : ∀ k m, b.map k = some m → b'.map k = some m) :
    waiting U b' ≤ waiting U b := by
  apply filter_length_le
  intro k _ hk
  cases hb : b.map k with
  | none => rfl
  | some m => rw [h k m hb] at hk; cases hk

theorem waiting_lt {U : List K} {b b' : Build K} {k : K} (hU : k ∈ U)
    (h : ∀ k m, b.map k = some m → b'.map k = some m) (hk : b.map k = none) (hk' : b'.map k ≠ none) :
    waiting U b' < waiting U b := by
  apply filter_length_lt hU
  · intro k _ hk
    cases hb : b.map k with
    | none => rfl
    | some m => rw [h k m hb] at hk; cases hk
  · cases h' : b'.map k with
    | none => exact absurd h' hk'
    | some m => rfl
  · rw [hk]; rfl

theorem Done.mono {succ : K → List (Label × K)} {final : K → Bool} {b b' : Build K} {k : K} {m : Nat}
    (h : Done succ final b k m) (hn : b'.graph.node m = b.graph.node m)
    (hk : ∀ k m, b.map k = some m → b'.map k = some m) : Done succ final b' k m := by
  refine ⟨by rw [hn]; exact h.1, ?_⟩
  rw [hn, h.2]
  congr 1
  apply List.map_congr_left
  intro a ha
  have hin : (a.1, b.map a.2) ∈ (b.graph.node m).arcs.map (fun a => (a.1, some a.2)) := by
    rw [h.2, List.mem_reverse]
    exact List.mem_map.2 ⟨a, ha, rfl⟩
  obtain ⟨c, _, hc⟩ := List.mem_map.1 hin
  have h2 : b.map a.2 = some c.2 := (congrArg Prod.snd hc).symm
  show (a.1, b.map a.2) = (a.1, b'.map a.2)
  rw [h2, hk _ _ h2]

theorem Linked.nil {succ : K → List (Label × K)} {final : K → Bool} {n : Nat} {b : Build K} (hb : b.Ok) :
    Linked succ final n [] b b where
  ok := hb
  grows := Nat.le_refl _
  keeps := fun _ _ h => h
  fresh := fun k m h h' => by rw [h'] at h; cases h
  others := fun _ _ _ => rfl
  fin := rfl
  arcs := by simp
  has := fun a h => by cases h
  done := fun k m h h' => by rw [h'] at h; cases h
  reached := fun k m h h' => by rw [h'] at h; cases h
  onto := fun j h h' => absurd h' (Nat.not_lt.2 h)

theorem Linked.append {succ : K → List (Label × K)} {final : K → Bool} {n : Nat} {L1 L2 : List (Label × K)}
    {b b1 b2 : Build K} (hn : ∃ k, b.map k = some n) (h1 : Linked succ final n L1 b b1)
    (h2 : Linked succ final n L2 b1 b2) : Linked succ final n (L1 ++ L2) b b2 where
  ok := h2.ok
  grows := Nat.le_trans h1.grows h2.grows
  keeps := fun k m h => h2.keeps _ _ (h1.keeps _ _ h)
  fresh := fun k m h h' => by
    cases hk : b1.map k with
    | none => exact Nat.le_trans h1.grows (h2.fresh k m h hk)
    | some m' =>
      have := h2.keeps _ _ hk
      rw [this] at h
      cases h
      exact h1.fresh k m hk h'
  others := fun j hj hjn => by
    rw [h2.others j (Nat.lt_of_lt_of_le hj h1.grows) hjn, h1.others j hj hjn]
  fin := by rw [h2.fin, h1.fin]
  arcs := by
    rw [h2.arcs, h1.arcs, ← List.append_assoc, List.map_append, List.reverse_append]
    congr 2
    congr 1
    apply List.map_congr_left
    intro a ha
    show (a.1, b1.map a.2) = (a.1, b2.map a.2)
    cases hk : b1.map a.2 with
    | none => exact absurd hk (h1.has a ha)
    | some m => rw [h2.keeps _ _ hk]
  has := fun a ha => by
    rcases List.mem_append.1 ha with h | h
    · cases hk : b1.map a.2 with
      | none => exact absurd hk (h1.has a h)
      | some m => rw [h2.keeps _ _ hk]; exact fun h => by cases h
    · exact h2.has a h
  done := fun k m h h' => by
    cases hk : b1.map k with
    | none => exact h2.done k m h hk
    | some m' =>
      have hm := h2.keeps _ _ hk
      rw [hm] at h
      cases h
      apply (h1.done k m hk h').mono _ h2.keeps
      apply h2.others m (h1.ok.low k m hk)
      rintro rfl
      obtain ⟨k0, hk0⟩ := hn
      have := h1.ok.inj k k0 m hk (h1.keeps _ _ hk0)
      rw [this, hk0] at h'
      cases h'
  reached := fun k m h h' => by
    cases hk : b1.map k with
    | none =>
      obtain ⟨a, ha, hr⟩ := h2.reached k m h hk
      exact ⟨a, List.mem_append_right _ ha, hr⟩
    | some m' =>
      obtain ⟨a, ha, hr⟩ := h1.reached k m' hk h'
      exact ⟨a, List.mem_append_left _ ha, hr⟩
  onto := fun j h h' => by
    by_cases hj : j < b1.graph.size
    · obtain ⟨k, hk⟩ := h1.onto j h hj
      exact ⟨k, h2.keeps _ _ hk⟩
    · exact h2.onto j (Nat.not_lt.1 hj) h'

/-- One arc, given that the recursion works. -/
theorem linkArc_linked {succ : K → List (Label × K)} {final : K → Bool} {late : Bool} {f : Nat}
    {U : List K}
    (ih : ∀ k n (b : Build K), k ∈ U → b.Ok → b.map k = some n → (b.graph.node n).arcs = [] →
      waiting U b < f → ∃ b', explore late succ final f k n b = some b' ∧ Explored succ final k n b b')
    {n : Nat} {b : Build K} {a : Label × K} (ha : a.2 ∈ U) (hb : b.Ok) (hn : ∃ k, b.map k = some n)
    (hw : waiting U b ≤ f) :
    ∃ b', linkArc late (explore late succ final f) n b a = some b' ∧ Linked succ final n [a] b b' := by
  obtain ⟨k0, hk0⟩ := hn
  have hlow := hb.low _ _ hk0
  cases hm : b.map a.2 with
  | some m =>
    refine ⟨{ b with graph := b.graph.addArc n a.1 m }, by simp [linkArc, hm], ?_⟩
    refine ⟨⟨hb.low, hb.inj⟩, Nat.le_refl _, fun _ _ h => h, ?_, ?_, ?_, ?_, ?_, ?_, ?_,
      fun j h h' => absurd h' (Nat.not_lt.2 h)⟩
    · intro k m' h h'
      rw [show ({ b with graph := b.graph.addArc n a.1 m } : Build K).map k = b.map k from rfl, h'] at h
      cases h
    · intro j _ hj
      rw [node_addArc, if_neg hj]
    · rw [node_addArc, if_pos rfl]
    · rw [node_addArc, if_pos rfl]
      simp [hm]
    · intro c hc
      rw [List.mem_singleton.1 hc]
      show b.map a.2 ≠ none
      rw [hm]; exact fun h => by cases h
    · intro k m' h h'
      rw [show ({ b with graph := b.graph.addArc n a.1 m } : Build K).map k = b.map k from rfl, h'] at h
      cases h
    · intro k m' h h'
      rw [show ({ b with graph := b.graph.addArc n a.1 m } : Build K).map k = b.map k from rfl, h'] at h
      cases h
  | none =>
    let m := b.graph.size
    have hmk : ∀ k m', b.map k = some m' → assign b.map a.2 m k = some m' := by
      intro k m' h
      rw [assign_other]
      · exact h
      · rintro rfl; rw [hm] at h; cases h
    have hinv : ∀ k m', assign b.map a.2 m k = some m' → (k = a.2 ∧ m' = m) ∨ b.map k = some m' := by
      intro k m' h
      by_cases hk : k = a.2
      · subst hk
        rw [assign_same] at h
        cases h
        exact Or.inl ⟨rfl, rfl⟩
      · rw [assign_other hk] at h
        exact Or.inr h
    have hnm : n ≠ m := Nat.ne_of_lt hlow
    cases hlate : late with
    | false =>
      let b1 : Build K := ⟨b.graph.newNode.addArc n a.1 m, assign b.map a.2 m⟩
      have hb1 : b1.Ok := by
        constructor
        · intro k m' h
          rcases hinv k m' h with ⟨_, rfl⟩ | h
          · exact Nat.lt_succ_self _
          · exact Nat.lt_succ_of_lt (hb.low _ _ h)
        · intro k k' m' h h'
          rcases hinv k m' h with ⟨h1, h2⟩ | h <;> rcases hinv k' m' h' with ⟨h3, h4⟩ | h'
          · rw [h1, h3]
          · rw [h2] at h'
            exact absurd (hb.low _ _ h') (Nat.lt_irrefl _)
          · rw [h4] at h
            exact absurd (hb.low _ _ h) (Nat.lt_irrefl _)
          · exact hb.inj _ _ _ h h'
      have hnode : ∀ j, j < b.graph.size → j ≠ n → b1.graph.node j = b.graph.node j := by
        intro j hj hjn
        show (b.graph.newNode.addArc n a.1 m).node j = _
        rw [node_addArc, if_neg hjn, node_newNode, if_neg (Nat.ne_of_lt hj)]
      have hnn : b1.graph.node n =
          { b.graph.node n with arcs := (a.1, m) :: (b.graph.node n).arcs } := by
        show (b.graph.newNode.addArc n a.1 m).node n = _
        rw [node_addArc, if_pos rfl, node_newNode, if_neg hnm]
      have hnew : b1.graph.node m = Node.init := by
        show (b.graph.newNode.addArc n a.1 m).node m = _
        rw [node_addArc, if_neg (Ne.symm hnm), node_newNode, if_pos rfl]
      have hw1 : waiting U b1 < f := by
        refine Nat.lt_of_lt_of_le (waiting_lt ha hmk hm ?_) hw
        show assign b.map a.2 m a.2 ≠ none
        rw [assign_same]; exact fun h => by cases h
      rw [hlate] at ih
      obtain ⟨b', he, hE⟩ := ih a.2 m b1 ha hb1 (assign_same ..) (by rw [hnew]; rfl) hw1
      refine ⟨b', by simp only [linkArc, hm]; exact he, ?_⟩
      have hgr : b.graph.size + 1 ≤ b'.graph.size := hE.grows
      refine ⟨hE.ok, Nat.le_of_succ_le hgr, fun k m' h => hE.keeps _ _ (hmk _ _ h), ?_, ?_, ?_, ?_, ?_,
        ?_, ?_, ?_⟩
      · intro k m' h h'
        by_cases hk : k = a.2
        · subst hk
          rw [hE.keeps _ _ (assign_same ..)] at h
          cases h
          exact Nat.le_refl _
        · exact Nat.le_trans (Nat.le_succ _) (hE.fresh k m' h (by
            show assign b.map a.2 m k = none
            rw [assign_other hk]; exact h'))
      · intro j hj hjn
        rw [hE.others j (Nat.lt_succ_of_lt hj) (Nat.ne_of_lt hj), hnode j hj hjn]
      · rw [hE.others n (Nat.lt_succ_of_lt hlow) hnm, hnn]
      · rw [hE.others n (Nat.lt_succ_of_lt hlow) hnm, hnn]
        simp [hE.keeps _ _ (assign_same ..)]
      · intro c hc
        rw [List.mem_singleton.1 hc, hE.keeps a.2 m (assign_same ..)]
        exact fun h => by cases h
      · intro k m' h h'
        apply hE.done k m' h
        by_cases hk : k = a.2
        · exact Or.inr hk
        · left
          show assign b.map a.2 m k = none
          rw [assign_other hk]; exact h'
      · intro k m' h h'
        refine ⟨a, List.mem_singleton.2 rfl, ?_⟩
        by_cases hk : k = a.2
        · rw [hk]; exact .refl
        · apply hE.reached k m' h
          show assign b.map a.2 m k = none
          rw [assign_other hk]; exact h'
      · intro j hj hj'
        by_cases hjm : j = m
        · exact ⟨a.2, by rw [hjm]; exact hE.keeps a.2 m (assign_same ..)⟩
        · exact hE.onto j (by
            show b.graph.size + 1 ≤ j
            have : j ≠ b.graph.size := hjm
            omega) hj'
    | true =>
      let b1 : Build K := ⟨b.graph.newNode, assign b.map a.2 m⟩
      have hb1 : b1.Ok := by
        constructor
        · intro k m' h
          rcases hinv k m' h with ⟨_, rfl⟩ | h
          · exact Nat.lt_succ_self _
          · exact Nat.lt_succ_of_lt (hb.low _ _ h)
        · intro k k' m' h h'
          rcases hinv k m' h with ⟨h1, h2⟩ | h <;> rcases hinv k' m' h' with ⟨h3, h4⟩ | h'
          · rw [h1, h3]
          · rw [h2] at h'
            exact absurd (hb.low _ _ h') (Nat.lt_irrefl _)
          · rw [h4] at h
            exact absurd (hb.low _ _ h) (Nat.lt_irrefl _)
          · exact hb.inj _ _ _ h h'
      have hnode : ∀ j, j < b.graph.size → b1.graph.node j = b.graph.node j := by
        intro j hj
        show b.graph.newNode.node j = _
        rw [node_newNode, if_neg (Nat.ne_of_lt hj)]
      have hnew : b1.graph.node m = Node.init := by
        show b.graph.newNode.node m = _
        rw [node_newNode, if_pos rfl]
      have hw1 : waiting U b1 < f := by
        refine Nat.lt_of_lt_of_le (waiting_lt ha hmk hm ?_) hw
        show assign b.map a.2 m a.2 ≠ none
        rw [assign_same]; exact fun h => by cases h
      rw [hlate] at ih
      obtain ⟨b2, he, hE⟩ := ih a.2 m b1 ha hb1 (assign_same ..) (by rw [hnew]; rfl) hw1
      have hgr : b.graph.size + 1 ≤ b2.graph.size := hE.grows
      let b' : Build K := { b2 with graph := b2.graph.addArc n a.1 m }
      refine ⟨b', by
        simp only [linkArc, hm, if_true]
        show Option.map _ (explore true succ final f a.2 m b1) = _
        rw [he]; rfl, ?_⟩
      have hn2 : b2.graph.node n = b.graph.node n := by
        rw [hE.others n (Nat.lt_succ_of_lt hlow) hnm, hnode n hlow]
      refine ⟨⟨hE.ok.low, hE.ok.inj⟩, Nat.le_of_succ_le hgr, fun k m' h => hE.keeps _ _ (hmk _ _ h), ?_, ?_,
        ?_, ?_, ?_, ?_, ?_, ?_⟩
      · intro k m' h h'
        by_cases hk : k = a.2
        · subst hk
          have h1 : b2.map a.2 = some m' := h
          rw [hE.keeps _ _ (assign_same ..)] at h1
          cases h1
          exact Nat.le_refl _
        · exact Nat.le_trans (Nat.le_succ _) (hE.fresh k m' h (by
            show assign b.map a.2 m k = none
            rw [assign_other hk]; exact h'))
      · intro j hj hjn
        show (b2.graph.addArc n a.1 m).node j = _
        rw [node_addArc, if_neg hjn, hE.others j (Nat.lt_succ_of_lt hj) (Nat.ne_of_lt hj), hnode j hj]
      · show ((b2.graph.addArc n a.1 m).node n).final = _
        rw [node_addArc, if_pos rfl, hn2]
      · show ((b2.graph.addArc n a.1 m).node n).arcs.map _ = _
        rw [node_addArc, if_pos rfl, hn2]
        have : b'.map a.2 = some m := hE.keeps a.2 m (assign_same ..)
        simp [this]
      · intro c hc
        rw [List.mem_singleton.1 hc]
        have : b'.map a.2 = some m := hE.keeps a.2 m (assign_same ..)
        rw [this]
        exact fun h => by cases h
      · intro k m' h h'
        have hd : Done succ final b2 k m' := by
          apply hE.done k m' h
          by_cases hk : k = a.2
          · exact Or.inr hk
          · left
            show assign b.map a.2 m k = none
            rw [assign_other hk]; exact h'
        apply hd.mono
        · show (b2.graph.addArc n a.1 m).node m' = _
          rw [node_addArc, if_neg]
          rintro rfl
          have := hE.ok.inj k k0 m' h (hE.keeps _ _ (hmk _ _ hk0))
          rw [this, hk0] at h'
          cases h'
        · exact fun _ _ h => h
      · intro k m' h h'
        refine ⟨a, List.mem_singleton.2 rfl, ?_⟩
        by_cases hk : k = a.2
        · rw [hk]; exact .refl
        · apply hE.reached k m' h
          show assign b.map a.2 m k = none
          rw [assign_other hk]; exact h'
      · intro j hj hj'
        by_cases hjm : j = m
        · exact ⟨a.2, by rw [hjm]; exact hE.keeps a.2 m (assign_same ..)⟩
        · exact hE.onto j (by
            show b.graph.size + 1 ≤ j
            have : j ≠ b.graph.size := hjm
            omega) hj'

/-- All arcs, given that the recursion works. -/
theorem foldlM_linked {succ : K → List (Label × K)} {final : K → Bool} {late : Bool} {f : Nat}
    {U : List K}
    (ih : ∀ k n (b : Build K), k ∈ U → b.Ok → b.map k = some n → (b.graph.node n).arcs = [] →
      waiting U b < f → ∃ b', explore late succ final f k n b = some b' ∧ Explored succ final k n b b')
    {n : Nat} (L : List (Label × K)) :
    ∀ {b : Build K}, (∀ a ∈ L, a.2 ∈ U) → b.Ok → (∃ k, b.map k = some n) → waiting U b ≤ f →
    ∃ b', L.foldlM (linkArc late (explore late succ final f) n) b = some b' ∧
      Linked succ final n L b b' := by
  induction L with
  | nil => exact fun _ hb _ _ => ⟨_, rfl, Linked.nil hb⟩
  | cons a L ihL =>
    intro b hL hb hn hw
    obtain ⟨b1, h1, hl1⟩ := linkArc_linked ih (hL a (List.mem_cons_self ..)) hb hn hw
    obtain ⟨k, hk⟩ := hn
    obtain ⟨b2, h2, hl2⟩ := ihL (fun c hc => hL c (List.mem_cons_of_mem _ hc)) hl1.ok
      ⟨k, hl1.keeps _ _ hk⟩ (Nat.le_trans (waiting_le hl1.keeps) hw)
    refine ⟨b2, ?_, Linked.append (L1 := [a]) ⟨k, hk⟩ hl1 hl2⟩
    rw [List.foldlM_cons, h1]
    exact h2

/-- **The recursion ends and makes the nodes the keys tell.** -/
theorem explore_explored {succ : K → List (Label × K)} {final : K → Bool} {late : Bool} {U : List K}
    (hU : ∀ k ∈ U, ∀ a ∈ succ k, a.2 ∈ U) (f : Nat) :
    ∀ k n (b : Build K), k ∈ U → b.Ok → b.map k = some n → (b.graph.node n).arcs = [] →
      waiting U b < f → ∃ b', explore late succ final f k n b = some b' ∧ Explored succ final k n b b' := by
  induction f with
  | zero => exact fun _ _ _ _ _ _ _ h => absurd h (Nat.not_lt_zero _)
  | succ f ih =>
    intro k n b hk hb hm harcs hw
    let b0 : Build K := { b with graph := b.graph.setFinal n (final k) }
    have hn0 : ∀ j, b0.graph.node j =
        if j = n then { b.graph.node j with final := final k } else b.graph.node j := fun j => rfl
    obtain ⟨b', h', hl⟩ := foldlM_linked ih (n := n) (succ k) (b := b0) (hU k hk) ⟨hb.low, hb.inj⟩ ⟨k, hm⟩
      (Nat.le_of_lt_succ hw)
    refine ⟨b', h', hl.ok, hl.grows, hl.keeps, hl.fresh, ?_, ?_, hl.has, ?_, hl.onto⟩
    · intro j hj hjn
      rw [hl.others j hj hjn, hn0, if_neg hjn]
    · intro k' m h h2
      cases hb' : b.map k' with
      | none => exact hl.done k' m h hb'
      | some m' =>
        rw [hb'] at h2
        rcases h2 with h2 | rfl
        · cases h2
        · have := hl.keeps k' n hm
          rw [this] at h
          cases h
          constructor
          · rw [hl.fin, hn0, if_pos rfl]
          · rw [hl.arcs, hn0, if_pos rfl]
            simp [harcs]
    · intro k' m h h2
      obtain ⟨a, ha, hr⟩ := hl.reached k' m h h2
      exact .step (l := a.1) ha hr

/-! ## What is accepted -/

/-- The keys as a system of their own. -/
def KTakes (succ : K → List (Label × K)) (final : K → Bool) (k : K) (w : List Label) : Prop :=
  Accepts (fun k l k' => (l, k') ∈ succ k) (fun k => final k = true) k w

theorem Done.arc {succ : K → List (Label × K)} {final : K → Bool} {b : Build K} {k : K} {m : Nat}
    (h : Done succ final b k m) {l : Label} {t : Nat} :
    (l, t) ∈ (b.graph.node m).arcs ↔ ∃ k', (l, k') ∈ succ k ∧ b.map k' = some t := by
  have h1 : (l, t) ∈ (b.graph.node m).arcs ↔
      (l, some t) ∈ (b.graph.node m).arcs.map (fun a => (a.1, some a.2)) := by
    rw [List.mem_map]
    constructor
    · exact fun h => ⟨_, h, rfl⟩
    · rintro ⟨⟨l', t'⟩, ha, he⟩
      simp only [Prod.mk.injEq, Option.some.injEq] at he
      rw [← he.1, ← he.2]
      exact ha
  rw [h1, h.2, List.mem_reverse, List.mem_map]
  constructor
  · rintro ⟨⟨l', k'⟩, ha, he⟩
    simp only [Prod.mk.injEq] at he
    exact ⟨k', he.1 ▸ ha, he.2⟩
  · rintro ⟨k', ha, he⟩
    exact ⟨_, ha, by rw [he]⟩

theorem Done.has {succ : K → List (Label × K)} {final : K → Bool} {b : Build K} {k : K} {m : Nat}
    (h : Done succ final b k m) {a : Label × K} (ha : a ∈ succ k) : ∃ t, b.map a.2 = some t := by
  have hin : (a.1, b.map a.2) ∈ (b.graph.node m).arcs.map (fun a => (a.1, some a.2)) := by
    rw [h.2, List.mem_reverse]
    exact List.mem_map.2 ⟨a, ha, rfl⟩
  obtain ⟨c, _, hc⟩ := List.mem_map.1 hin
  exact ⟨c.2, (congrArg Prod.snd hc).symm⟩

/-- If the nodes of all keys are as the keys tell, they accept what the keys accept. -/
theorem takes_keys {succ : K → List (Label × K)} {final : K → Bool} {b : Build K} {D : K → Prop}
    (hD : ∀ k m, D k → b.map k = some m → Done succ final b k m)
    (hc : ∀ k, D k → ∀ a ∈ succ k, D a.2) {k : K} {m : Nat} (hk : D k)
    (hm : b.map k = some m) (w : List Label) :
    b.graph.Takes m w ↔ KTakes succ final k w := by
  constructor
  · intro h
    unfold Graph.Takes at h
    induction h generalizing k with
    | stop hf => exact .stop ((hD k _ hk hm).1 ▸ hf)
    | skip hs _ ih =>
      obtain ⟨k', h1, h2⟩ := (hD k _ hk hm).arc.1 hs
      exact .skip h1 (ih (hc _ hk _ h1) h2)
    | read hl hs _ ih =>
      obtain ⟨k', h1, h2⟩ := (hD k _ hk hm).arc.1 hs
      exact .read hl h1 (ih (hc _ hk _ h1) h2)
  · intro h
    unfold KTakes at h
    induction h generalizing m with
    | stop hf => exact .stop ((hD _ m hk hm).1.trans hf)
    | skip hs _ ih =>
      obtain ⟨t, ht⟩ := (hD _ m hk hm).has hs
      exact .skip ((hD _ m hk hm).arc.2 ⟨_, hs, ht⟩) (ih (hc _ hk _ hs) ht)
    | read hl hs _ ih =>
      obtain ⟨t, ht⟩ := (hD _ m hk hm).has hs
      exact .read hl ((hD _ m hk hm).arc.2 ⟨_, hs, ht⟩) (ih (hc _ hk _ hs) ht)

/-! ## The whole building -/

/-- What comes of building from key `k0` at the empty node `n0` of the graph `a`. -/
structure Built (succ : K → List (Label × K)) (final : K → Bool) (k0 : K) (n0 : Nat) (a : Graph)
    (b : Build K) : Prop where
  grows : a.size ≤ b.graph.size
  others : ∀ j, j < a.size → j ≠ n0 → b.graph.node j = a.node j
  root : b.map k0 = some n0
  low : ∀ k m, b.map k = some m → m < b.graph.size ∧ (m = n0 ∨ a.size ≤ m)
  inj : ∀ k k' m, b.map k = some m → b.map k' = some m → k = k'
  onto : ∀ j, a.size ≤ j → j < b.graph.size → ∃ k, b.map k = some j
  done : ∀ k m, b.map k = some m → Done succ final b k m
  reached : ∀ k m, b.map k = some m → KReach succ k0 k

theorem explore_built {succ : K → List (Label × K)} {final : K → Bool} (late : Bool) {U : List K}
    (hU : ∀ k ∈ U, ∀ a ∈ succ k, a.2 ∈ U) {k0 : K} (hk : k0 ∈ U) {f : Nat} (hf : U.length < f)
    {a : Graph} {n0 : Nat} (hn : n0 < a.size) (harcs : (a.node n0).arcs = []) :
    ∃ b, explore late succ final f k0 n0 ⟨a, assign (fun _ => none) k0 n0⟩ = some b ∧
      Built succ final k0 n0 a b := by
  have hinv : ∀ k m, assign (fun _ => none) k0 n0 k = some m → k = k0 ∧ m = n0 := by
    intro k m h
    by_cases hk' : k = k0
    · subst hk'
      rw [assign_same] at h
      cases h
      exact ⟨rfl, rfl⟩
    · rw [assign_other hk'] at h
      cases h
  obtain ⟨b, hb, hE⟩ := explore_explored (late := late) (succ := succ) (final := final) hU f k0 n0
    ⟨a, assign (fun _ => none) k0 n0⟩ hk
    ⟨fun k m h => by rw [(hinv k m h).2]; exact hn, fun k k' m h h' => by
      rw [(hinv k m h).1, (hinv k' m h').1]⟩ (assign_same (fun _ => none) k0 n0) harcs
    (Nat.lt_of_le_of_lt (List.length_filter_le ..) hf)
  have hoth : ∀ k, k ≠ k0 → assign (fun _ => none) k0 n0 k = none := fun k h =>
    assign_other (f := fun _ => none) h
  refine ⟨b, hb, hE.grows, hE.others, hE.keeps _ _ (assign_same (fun _ => none) k0 n0), ?_, hE.ok.inj, hE.onto, ?_, ?_⟩
  · intro k m h
    refine ⟨hE.ok.low k m h, ?_⟩
    by_cases hk' : k = k0
    · subst hk'
      rw [hE.keeps _ _ (assign_same (fun _ => none) k n0)] at h
      cases h
      exact Or.inl rfl
    · exact Or.inr (hE.fresh k m h (hoth k hk'))
  · intro k m h
    apply hE.done k m h
    by_cases hk' : k = k0
    · exact Or.inr hk'
    · exact Or.inl (hoth k hk')
  · intro k m h
    by_cases hk' : k = k0
    · rw [hk']; exact .refl
    · exact hE.reached k m h (hoth k hk')

theorem Built.takes {succ : K → List (Label × K)} {final : K → Bool} {k0 : K} {n0 : Nat} {a : Graph}
    {b : Build K} (h : Built succ final k0 n0 a b) (w : List Label) :
    b.graph.Takes n0 w ↔ KTakes succ final k0 w :=
  takes_keys (D := fun _ => True) (fun k m _ hm => h.done k m hm) (fun _ _ _ _ => trivial) trivial h.root w

theorem Built.takes_at {succ : K → List (Label × K)} {final : K → Bool} {k0 : K} {n0 : Nat} {a : Graph}
    {b : Build K} (h : Built succ final k0 n0 a b) {k : K} {n : Nat} (hk : b.map k = some n)
    (w : List Label) : b.graph.Takes n w ↔ KTakes succ final k w :=
  takes_keys (D := fun _ => True) (fun k m _ hm => h.done k m hm) (fun _ _ _ _ => trivial) trivial hk w

/-- Arcs of new nodes lead to new nodes. -/
theorem Built.arcs {succ : K → List (Label × K)} {final : K → Bool} {k0 : K} {n0 : Nat} {a : Graph}
    {b : Build K} (h : Built succ final k0 n0 a b) {j : Nat} (hj : j = n0 ∨ a.size ≤ j)
    (hj' : j < b.graph.size) {c : Label × Nat} (hc : c ∈ (b.graph.node j).arcs) :
    c.2 < b.graph.size ∧ (c.2 = n0 ∨ a.size ≤ c.2) := by
  have : ∃ k, b.map k = some j := by
    rcases hj with rfl | hj
    · exact ⟨k0, h.root⟩
    · exact h.onto j hj hj'
  obtain ⟨k, hk⟩ := this
  obtain ⟨k', _, hk'⟩ := (h.done k j hk).arc (l := c.1) (t := c.2) |>.1 hc
  exact h.low k' c.2 hk'

/-- Building from the root gives a transducer whose arcs lead to its nodes. -/
theorem Built.closed {succ : K → List (Label × K)} {final : K → Bool} {k0 : K}
    {b : Build K} (h : Built succ final k0 0 Graph.fresh b) : b.graph.Closed := by
  refine ⟨Nat.lt_of_lt_of_le Nat.zero_lt_one h.grows, fun n hn c hc => ?_⟩
  refine (h.arcs (j := n) ?_ hn hc).1
  rcases Nat.eq_zero_or_pos n with h0 | h0
  · exact Or.inl h0
  · exact Or.inr h0

/-- The nodes reached are those of the keys. -/
theorem Built.reach {succ : K → List (Label × K)} {final : K → Bool} {k0 : K} {n0 : Nat} {a : Graph}
    {b : Build K} (h : Built succ final k0 n0 a b) {n m : Nat} (hr : b.graph.Reach n m) :
    ∀ {k}, b.map k = some n → ∃ k', b.map k' = some m ∧ KReach succ k k' := by
  induction hr with
  | refl => exact fun hk => ⟨_, hk, .refl⟩
  | step hs _ ih =>
    intro k hk
    obtain ⟨k', h1, h2⟩ := (h.done k _ hk).arc.1 hs
    obtain ⟨k'', h3, h4⟩ := ih h2
    exact ⟨k'', h3, .step h1 h4⟩

theorem Done.labels {succ : K → List (Label × K)} {final : K → Bool} {b : Build K} {k : K} {m : Nat}
    (h : Done succ final b k m) :
    (b.graph.node m).arcs.map (fun a => a.1) = ((succ k).map (fun a => a.1)).reverse := by
  have := congrArg (List.map Prod.fst) h.2
  rw [List.map_map, List.map_reverse, List.map_map] at this
  exact this

/-- Keys without epsilon and with different labels give a deterministic transducer. -/
theorem Built.deterministic {succ : K → List (Label × K)} {final : K → Bool} {k0 : K} {a : Graph}
    {b : Build K} (h : Built succ final k0 0 a b)
    (hd : ∀ k, KReach succ k0 k →
      (∀ c ∈ succ k, c.1 ≠ ⟨0, 0⟩) ∧ ((succ k).map (fun c => c.1)).Nodup) :
    b.graph.Deterministic := by
  intro n hn
  obtain ⟨k, hk, hr⟩ := h.reach hn h.root
  obtain ⟨h1, h2⟩ := hd k hr
  refine ⟨fun c hc => ?_, ?_⟩
  · obtain ⟨k', hk', _⟩ := (h.done k n hk).arc (l := c.1) (t := c.2) |>.1 hc
    exact h1 _ hk'
  · rw [(h.done k n hk).labels]
    exact List.pairwise_reverse.2 (h2.imp Ne.symm)

end Hfst.Sfst
