import Verif.Lemmas.SfstReverse

/-!
# Determinisation: node sets
-/

namespace Hfst.Sfst

/-! ## Ordered lists as sets -/

/-- In increasing order. -/
def Sorted (ns : List Nat) : Prop := ns.Pairwise (fun a b => a < b)

theorem sorted_ext {xs ys : List Nat} (hx : Sorted xs) (hy : Sorted ys) (h : ∀ j, j ∈ xs ↔ j ∈ ys) :
    xs = ys := by
  induction xs generalizing ys with
  | nil =>
    cases ys with
    | nil => rfl
    | cons y ys => exact absurd ((h y).2 (List.mem_cons_self ..)) (by simp)
  | cons x xs ih =>
    cases ys with
    | nil => exact absurd ((h x).1 (List.mem_cons_self ..)) (by simp)
    | cons y ys =>
      have hx' := List.pairwise_cons.1 hx
      have hy' := List.pairwise_cons.1 hy
      have hxy : x = y := by
        rcases List.mem_cons.1 ((h x).1 (List.mem_cons_self ..)) with e | e
        · exact e
        · rcases List.mem_cons.1 ((h y).2 (List.mem_cons_self ..)) with e' | e'
          · exact e'.symm
          · have := hy'.1 _ e
            have := hx'.1 _ e'
            omega
      subst hxy
      rw [ih hx'.2 hy'.2]
      intro j
      constructor
      · intro hj
        rcases List.mem_cons.1 ((h j).1 (List.mem_cons_of_mem _ hj)) with e | e
        · have := hx'.1 _ hj; omega
        · exact e
      · intro hj
        rcases List.mem_cons.1 ((h j).2 (List.mem_cons_of_mem _ hj)) with e | e
        · have := hy'.1 _ hj; omega
        · exact e

theorem mem_insertNode {n j : Nat} {ns : List Nat} : j ∈ insertNode n ns ↔ j = n ∨ j ∈ ns := by
  induction ns with
  | nil => simp [insertNode]
  | cons m ms ih =>
    rw [insertNode]
    split
    · simp
    · split
      · rename_i h; subst h; simp
      · rw [List.mem_cons, ih, List.mem_cons]
        constructor
        · rintro (h | h | h)
          · exact .inr (.inl h)
          · exact .inl h
          · exact .inr (.inr h)
        · rintro (h | h | h)
          · exact .inr (.inl h)
          · exact .inl h
          · exact .inr (.inr h)

theorem sorted_insertNode {n : Nat} {ns : List Nat} (h : Sorted ns) : Sorted (insertNode n ns) := by
  induction ns with
  | nil => exact List.pairwise_singleton _ _
  | cons m ms ih =>
    have h' := List.pairwise_cons.1 h
    rw [insertNode]
    split
    · rename_i hlt
      refine List.pairwise_cons.2 ⟨fun a ha => ?_, h⟩
      rcases List.mem_cons.1 ha with rfl | ha
      · exact hlt
      · have := h'.1 _ ha; omega
    · split
      · exact h
      · rename_i h1 h2
        refine List.pairwise_cons.2 ⟨fun a ha => ?_, ih h'.2⟩
        rcases mem_insertNode.1 ha with rfl | ha
        · omega
        · exact h'.1 _ ha

/-- The sublists of a list. -/
def subs {α : Type} : List α → List (List α)
  | [] => [[]]
  | x :: xs => subs xs ++ (subs xs).map (fun s => x :: s)

theorem length_subs {α : Type} (xs : List α) : (subs xs).length = 2 ^ xs.length := by
  induction xs with
  | nil => rfl
  | cons x xs ih => rw [subs, List.length_append, List.length_map, ih, List.length_cons, Nat.pow_succ]; omega

theorem filter_mem_subs {α : Type} (p : α → Bool) (xs : List α) : xs.filter p ∈ subs xs := by
  induction xs with
  | nil => exact List.mem_singleton.2 rfl
  | cons x xs ih =>
    rw [subs, List.filter_cons]
    split
    · exact List.mem_append_right _ (List.mem_map.2 ⟨_, ih, rfl⟩)
    · exact List.mem_append_left _ ih

theorem sorted_mem_subs {n : Nat} {ns : List Nat} (h : Sorted ns) (hn : ∀ j ∈ ns, j < n) :
    ns ∈ subs (List.range n) := by
  have : ns = (List.range n).filter (fun j => decide (j ∈ ns)) := by
    refine sorted_ext h ((List.pairwise_lt_range).filter _) (fun j => ?_)
    rw [List.mem_filter, List.mem_range]
    exact ⟨fun hj => ⟨hn j hj, decide_eq_true hj⟩, fun hj => of_decide_eq_true hj.2⟩
  rw [this]
  exact filter_mem_subs _ _

/-! ## The closure under epsilon arcs -/

/-- Reached by arcs 0:0. -/
inductive Graph.EpsReach (g : Graph) : Nat → Nat → Prop
  | refl {n : Nat} : Graph.EpsReach g n n
  | step {n m p : Nat} : g.Step n ⟨0, 0⟩ m → Graph.EpsReach g m p → Graph.EpsReach g n p

theorem mem_epsArcs {nd : Node} {a : Label × Nat} : a ∈ nd.epsArcs ↔ a ∈ nd.arcs ∧ a.1 = ⟨0, 0⟩ := by
  unfold Node.epsArcs
  rw [List.mem_filter]
  exact and_congr Iff.rfl isEps_iff

theorem mem_otherArcs {nd : Node} {a : Label × Nat} : a ∈ nd.otherArcs ↔ a ∈ nd.arcs ∧ a.1 ≠ ⟨0, 0⟩ := by
  unfold Node.otherArcs
  rw [List.mem_filter]
  refine and_congr Iff.rfl ?_
  cases h : a.1.isEps with
  | true => exact ⟨(by intro h; cases h), fun h' => absurd (isEps_iff.1 h) h'⟩
  | false => exact ⟨fun _ h' => (by rw [isEps_iff.2 h'] at h; cases h), fun _ => rfl⟩

/-- What `NodeSet::add` does. -/
structure Added (g : Graph) (roots : Nat → Prop) (ns ns' : List Nat) : Prop where
  sorted : Sorted ns'
  keeps : ∀ j ∈ ns, j ∈ ns'
  low : ∀ j ∈ ns', j < g.size
  closed : ∀ j ∈ ns', j ∉ ns → ∀ a ∈ (g.node j).epsArcs, a.2 ∈ ns'
  reached : ∀ j ∈ ns', j ∉ ns → ∃ r, roots r ∧ g.EpsReach r j
  has : ∀ r, roots r → r ∈ ns'

theorem foldlM_added {g : Graph} {f : Nat}
    (ih : ∀ n ns, n < g.size → Sorted ns → (∀ j ∈ ns, j < g.size) → unmarked g.size ns < f →
      ∃ ns', addNode g f ns n = some ns' ∧ Added g (fun r => r = n) ns ns') (L : List (Label × Nat)) :
    ∀ ns, (∀ a ∈ L, a.2 < g.size) → Sorted ns → (∀ j ∈ ns, j < g.size) → unmarked g.size ns < f →
      ∃ ns', L.foldlM (fun ns' arc => addNode g f ns' arc.2) ns = some ns' ∧
        Added g (fun r => ∃ a ∈ L, a.2 = r) ns ns' := by
  induction L with
  | nil =>
    intro ns _ hs hl _
    exact ⟨ns, rfl, hs, fun _ h => h, hl, fun j h h' => absurd h h', fun j h h' => absurd h h',
      by rintro r ⟨a, ha, _⟩; cases ha⟩
  | cons a L ihL =>
    intro ns hL hs hl hu
    obtain ⟨n1, h1, H1⟩ := ih a.2 ns (hL a (List.mem_cons_self ..)) hs hl hu
    obtain ⟨n2, h2, H2⟩ := ihL n1 (fun c hc => hL c (List.mem_cons_of_mem _ hc)) H1.sorted H1.low
      (Nat.lt_of_le_of_lt (unmarked_le H1.keeps) hu)
    refine ⟨n2, ?_, H2.sorted, fun j hj => H2.keeps _ (H1.keeps _ hj), H2.low, fun j hj hn c hc => ?_,
      fun j hj hn => ?_, ?_⟩
    · rw [List.foldlM_cons]
      show (addNode g f ns a.2).bind _ = _
      rw [h1]
      exact h2
    · by_cases hj1 : j ∈ n1
      · exact H2.keeps _ (H1.closed j hj1 hn c hc)
      · exact H2.closed j hj hj1 c hc
    · by_cases hj1 : j ∈ n1
      · obtain ⟨r, rfl, hr⟩ := H1.reached j hj1 hn
        exact ⟨_, ⟨a, List.mem_cons_self .., rfl⟩, hr⟩
      · obtain ⟨r, ⟨c, hc, hcr⟩, hr⟩ := H2.reached j hj hj1
        exact ⟨r, ⟨c, List.mem_cons_of_mem _ hc, hcr⟩, hr⟩
    · rintro r ⟨c, hc, rfl⟩
      rcases List.mem_cons.1 hc with rfl | hc
      · exact H2.keeps _ (H1.has _ rfl)
      · exact H2.has _ ⟨c, hc, rfl⟩

theorem addNode_added {g : Graph} (hg : g.Closed) (f : Nat) :
    ∀ n ns, n < g.size → Sorted ns → (∀ j ∈ ns, j < g.size) → unmarked g.size ns < f →
      ∃ ns', addNode g f ns n = some ns' ∧ Added g (fun r => r = n) ns ns' := by
  induction f with
  | zero => intro _ _ _ _ _ h; exact absurd h (Nat.not_lt_zero _)
  | succ f ih =>
    intro n ns hn hs hl hu
    by_cases hm : n ∈ ns
    · refine ⟨ns, ?_, hs, fun _ h => h, hl, fun j h h' => absurd h h', fun j h h' => absurd h h', ?_⟩
      · rw [addNode, if_pos hm]
      · rintro r rfl; exact hm
    · have hl1 : ∀ j ∈ insertNode n ns, j < g.size := by
        intro j hj
        rcases mem_insertNode.1 hj with rfl | hj
        · exact hn
        · exact hl j hj
      have hu1 : unmarked g.size (insertNode n ns) < f := by
        have h1 := unmarked_cons hn hm
        have h2 : unmarked g.size (insertNode n ns) ≤ unmarked g.size (n :: ns) :=
          unmarked_le (fun j hj => mem_insertNode.2 (List.mem_cons.1 hj))
        omega
      obtain ⟨n1, h1, H⟩ := foldlM_added ih (g.node n).epsArcs (insertNode n ns)
        (fun a ha => hg.2 n hn a (mem_epsArcs.1 ha).1) (sorted_insertNode hs) hl1 hu1
      refine ⟨n1, ?_, H.sorted, fun j hj => H.keeps _ (mem_insertNode.2 (.inr hj)), H.low,
        fun j hj hjn c hc => ?_, fun j hj hjn => ?_, ?_⟩
      · rw [addNode, if_neg hm]; exact h1
      · by_cases hjn' : j = n
        · subst hjn'
          exact H.has _ ⟨c, hc, rfl⟩
        · exact H.closed j hj (fun h => (mem_insertNode.1 h).elim hjn' hjn) c hc
      · by_cases hjn' : j = n
        · exact ⟨n, rfl, hjn' ▸ .refl⟩
        · obtain ⟨r, ⟨c, hc, rfl⟩, hr⟩ := H.reached j hj (fun h => (mem_insertNode.1 h).elim hjn' hjn)
          obtain ⟨hc1, hc2⟩ := mem_epsArcs.1 hc
          refine ⟨n, rfl, .step (m := c.2) ?_ hr⟩
          show ((⟨0, 0⟩ : Label), c.2) ∈ _
          rw [← hc2]
          exact hc1
      · rintro r rfl
        exact H.keeps _ (mem_insertNode.2 (.inl rfl))

/-- A set closed under epsilon arcs. -/
structure Closure (g : Graph) (ns : List Nat) (R : Nat → Prop) : Prop where
  sorted : Sorted ns
  low : ∀ j ∈ ns, j < g.size
  mem : ∀ j, j ∈ ns ↔ ∃ r, R r ∧ g.EpsReach r j

theorem Graph.EpsReach.trans {g : Graph} {n m p : Nat} (h : g.EpsReach n m) (h' : g.EpsReach m p) :
    g.EpsReach n p := by
  induction h with
  | refl => exact h'
  | step hs _ ih => exact .step hs (ih h')

theorem add_closure {g : Graph} (hg : g.Closed) {n : Nat} (hn : n < g.size) {ns : List Nat} {R : Nat → Prop}
    (h : Closure g ns R) :
    ∃ ns', addNode g (g.size + 1) ns n = some ns' ∧ Closure g ns' (fun r => R r ∨ r = n) := by
  have hu : unmarked g.size ns < g.size + 1 := by
    have : unmarked g.size ns ≤ (List.range g.size).length := List.length_filter_le ..
    rw [List.length_range] at this
    omega
  obtain ⟨ns', h1, H⟩ := addNode_added hg (g.size + 1) n ns hn h.sorted h.low hu
  have hc : ∀ j ∈ ns', ∀ m, g.Step j ⟨0, 0⟩ m → m ∈ ns' := by
    intro j hj m hs
    by_cases hjn : j ∈ ns
    · obtain ⟨r, hr, hrj⟩ := (h.mem j).1 hjn
      exact H.keeps _ ((h.mem m).2 ⟨r, hr, hrj.trans (.step hs .refl)⟩)
    · exact H.closed j hj hjn (⟨0, 0⟩, m) (mem_epsArcs.2 ⟨hs, rfl⟩)
  refine ⟨ns', h1, H.sorted, H.low, fun j => ⟨fun hj => ?_, ?_⟩⟩
  · by_cases hjn : j ∈ ns
    · obtain ⟨r, hr, hrj⟩ := (h.mem j).1 hjn
      exact ⟨r, .inl hr, hrj⟩
    · obtain ⟨r, hr, hrj⟩ := H.reached j hj hjn
      exact ⟨r, .inr hr, hrj⟩
  · rintro ⟨r, hr, hrj⟩
    have hrn : r ∈ ns' := by
      rcases hr with hr | hr
      · exact H.keeps _ ((h.mem r).2 ⟨r, hr, .refl⟩)
      · exact H.has _ hr
    clear hr
    induction hrj with
    | refl => exact hrn
    | step hs _ ih => exact ih (hc _ hrn _ hs)

theorem closure_nil (g : Graph) : Closure g [] (fun _ => False) :=
  ⟨List.Pairwise.nil, (by intro j hj; cases hj), fun j => ⟨(by intro hj; cases hj), fun ⟨_, h, _⟩ => h.elim⟩⟩

theorem Closure.congr {g : Graph} {ns : List Nat} {R R' : Nat → Prop} (h : Closure g ns R)
    (hR : ∀ r, R r ↔ R' r) : Closure g ns R' :=
  ⟨h.sorted, h.low, fun j => (h.mem j).trans ⟨fun ⟨r, hr, hj⟩ => ⟨r, (hR r).1 hr, hj⟩,
    fun ⟨r, hr, hj⟩ => ⟨r, (hR r).2 hr, hj⟩⟩⟩

/-! ## The table of labels -/

theorem before_iff {a b : Label} :
    a.before b = true ↔ a.upper < b.upper ∨ (a.upper = b.upper ∧ a.lower < b.lower) := by
  unfold Label.before
  split
  · exact ⟨fun _ => .inl ‹_›, fun _ => rfl⟩
  · split
    · exact ⟨(by intro h; cases h), fun h => by omega⟩
    · split
      · exact ⟨fun _ => .inr ⟨by omega, ‹_›⟩, fun _ => rfl⟩
      · exact ⟨(by intro h; cases h), fun h => by omega⟩

theorem before_trans {a b c : Label} (h : a.before b = true) (h' : b.before c = true) : a.before c = true := by
  rw [before_iff] at *
  omega

theorem before_irrefl (a : Label) : a.before a = false := by
  cases h : a.before a with
  | false => rfl
  | true => rw [before_iff] at h; omega

theorem before_total {a b : Label} (h : a ≠ b) (h' : a.before b = false) : b.before a = true := by
  have h1 : ¬ (a.upper < b.upper ∨ (a.upper = b.upper ∧ a.lower < b.lower)) := by
    rw [← before_iff, h']; simp
  rw [before_iff]
  by_cases hu : a.upper = b.upper
  · by_cases hl : a.lower = b.lower
    · exact absurd (by cases a; cases b; simp_all) h
    · omega
  · omega

/-- The table for the arcs `L`: labels in order, each with the closure of the targets of its arcs. -/
structure Table (g : Graph) (L : List (Label × Nat)) (T : List (Label × List Nat)) : Prop where
  ordered : T.Pairwise (fun a b => a.1.before b.1 = true)
  sets : ∀ e ∈ T, Closure g e.2 (fun r => (e.1, r) ∈ L)
  has : ∀ l, (∃ e ∈ T, e.1 = l) ↔ ∃ m, (l, m) ∈ L

theorem updateSet_ok {f : List Nat → Option (List Nat)} {l : Label} :
    ∀ {T : List (Label × List Nat)}, T.Pairwise (fun a b => a.1.before b.1 = true) →
    (∀ s, (s = [] ∧ (∀ e ∈ T, e.1 ≠ l)) ∨ (l, s) ∈ T → ∃ s', f s = some s') →
    ∃ T', updateSet f l T = some T' ∧ T'.Pairwise (fun a b => a.1.before b.1 = true) ∧
      (∀ e, e ∈ T' ↔ (e ∈ T ∧ e.1 ≠ l) ∨ ∃ s s', f s = some s' ∧ e = (l, s') ∧
        ((s = [] ∧ (∀ e ∈ T, e.1 ≠ l)) ∨ (l, s) ∈ T)) := by
  intro T
  induction T with
  | nil =>
    intro _ hf
    obtain ⟨s', hs⟩ := hf [] (.inl ⟨rfl, by intro e he; cases he⟩)
    refine ⟨[(l, s')], by rw [updateSet, hs]; rfl, List.pairwise_singleton _ _, fun e => ?_⟩
    rw [List.mem_singleton]
    constructor
    · rintro rfl
      exact .inr ⟨[], s', hs, rfl, .inl ⟨rfl, by intro e he; cases he⟩⟩
    · rintro (⟨h, _⟩ | ⟨s, s'', h1, rfl, ⟨rfl, _⟩ | h⟩)
      · cases h
      · rw [hs] at h1; cases h1; rfl
      · cases h
  | cons c rest ih =>
    obtain ⟨l', s0⟩ := c
    intro hT hf
    have hT' := List.pairwise_cons.1 hT
    rw [updateSet]
    by_cases hl : l = l'
    · subst hl
      rw [if_pos rfl]
      obtain ⟨s', hs⟩ := hf s0 (.inr (List.mem_cons_self ..))
      have hrest : ∀ e ∈ rest, e.1 ≠ l := by
        rintro e he rfl
        have := hT'.1 _ he
        rw [before_irrefl] at this
        cases this
      refine ⟨(l, s') :: rest, by rw [hs]; rfl, List.pairwise_cons.2 ⟨hT'.1, hT'.2⟩, fun e => ?_⟩
      rw [List.mem_cons]
      constructor
      · rintro (rfl | he)
        · exact .inr ⟨s0, s', hs, rfl, .inr (List.mem_cons_self ..)⟩
        · exact .inl ⟨List.mem_cons_of_mem _ he, hrest _ he⟩
      · rintro (⟨he, hne⟩ | ⟨s, s'', h1, rfl, ⟨_, h⟩ | h⟩)
        · rcases List.mem_cons.1 he with rfl | he
          · exact absurd rfl hne
          · exact .inr he
        · exact absurd rfl (h _ (List.mem_cons_self ..))
        · rcases List.mem_cons.1 h with h | h
          · cases h
            rw [hs] at h1
            cases h1
            exact .inl rfl
          · exact absurd rfl (hrest _ h)
    · rw [if_neg hl]
      by_cases hb : l.before l' = true
      · rw [if_pos hb]
        have hno : ∀ e ∈ (l', s0) :: rest, e.1 ≠ l := by
          intro e he
          rcases List.mem_cons.1 he with rfl | he
          · exact fun h => hl h.symm
          · rintro rfl
            have := before_trans hb (hT'.1 _ he)
            rw [before_irrefl] at this
            cases this
        obtain ⟨s', hs⟩ := hf [] (.inl ⟨rfl, hno⟩)
        refine ⟨(l, s') :: (l', s0) :: rest, by rw [hs]; rfl, List.pairwise_cons.2 ⟨fun e he => ?_, hT⟩,
          fun e => ?_⟩
        · rcases List.mem_cons.1 he with rfl | he
          · exact hb
          · exact before_trans hb (hT'.1 _ he)
        · rw [List.mem_cons]
          constructor
          · rintro (rfl | he)
            · exact .inr ⟨[], s', hs, rfl, .inl ⟨rfl, hno⟩⟩
            · exact .inl ⟨he, hno _ he⟩
          · rintro (⟨he, _⟩ | ⟨s, s'', h1, rfl, ⟨rfl, _⟩ | h⟩)
            · exact .inr he
            · rw [hs] at h1; cases h1; exact .inl rfl
            · exact absurd rfl (hno _ h)
      · rw [if_neg hb]
        have hb' : l'.before l = true := before_total hl (by simpa using hb)
        obtain ⟨T', h1, h2, h3⟩ := ih hT'.2 (fun s hs => by
          refine hf s (hs.imp (fun h => ⟨h.1, ?_⟩) (List.mem_cons_of_mem _))
          intro e he
          rcases List.mem_cons.1 he with rfl | he
          · exact fun h => hl h.symm
          · exact h.2 e he)
        refine ⟨(l', s0) :: T', by rw [h1]; rfl, List.pairwise_cons.2 ⟨fun e he => ?_, h2⟩, fun e => ?_⟩
        · rcases (h3 e).1 he with ⟨he, _⟩ | ⟨s, s', _, rfl, _⟩
          · exact hT'.1 _ he
          · exact hb'
        · rw [List.mem_cons, h3 e]
          constructor
          · rintro (rfl | ⟨he, hne⟩ | ⟨s, s', hs, rfl, h⟩)
            · exact .inl ⟨List.mem_cons_self .., fun h => hl h.symm⟩
            · exact .inl ⟨List.mem_cons_of_mem _ he, hne⟩
            · refine .inr ⟨s, s', hs, rfl, h.imp (fun h => ⟨h.1, ?_⟩) (List.mem_cons_of_mem _)⟩
              intro e he
              rcases List.mem_cons.1 he with rfl | he
              · exact fun h => hl h.symm
              · exact h.2 e he
          · rintro (⟨he, hne⟩ | ⟨s, s', hs, rfl, h⟩)
            · rcases List.mem_cons.1 he with rfl | he
              · exact .inl rfl
              · exact .inr (.inl ⟨he, hne⟩)
            · refine .inr (.inr ⟨s, s', hs, rfl, ?_⟩)
              rcases h with h | h
              · exact .inl ⟨h.1, fun e he => h.2 e (List.mem_cons_of_mem _ he)⟩
              · rcases List.mem_cons.1 h with h | h
                · cases h; exact absurd rfl hl
                · exact .inr h

theorem update_table {g : Graph} (hg : g.Closed) {L : List (Label × Nat)} {T : List (Label × List Nat)}
    (h : Table g L T) {a : Label × Nat} (ha : a.2 < g.size) :
    ∃ T', updateSet (fun s => addNode g (g.size + 1) s a.2) a.1 T = some T' ∧ Table g (L ++ [a]) T' := by
  have hcl : ∀ s, (s = [] ∧ (∀ e ∈ T, e.1 ≠ a.1)) ∨ (a.1, s) ∈ T →
      Closure g s (fun r => (a.1, r) ∈ L) := by
    rintro s (⟨rfl, hn⟩ | hs)
    · refine (closure_nil g).congr (fun r => ⟨False.elim, fun hr => ?_⟩)
      obtain ⟨e, he, hea⟩ := (h.has a.1).2 ⟨r, hr⟩
      exact hn e he hea
    · exact h.sets _ hs
  obtain ⟨T', h1, h2, h3⟩ := updateSet_ok (f := fun s => addNode g (g.size + 1) s a.2) (l := a.1) h.ordered
    (fun s hs => by
      obtain ⟨s', hs', _⟩ := add_closure hg ha (hcl s hs)
      exact ⟨s', hs'⟩)
  refine ⟨T', h1, h2, fun e he => ?_, fun l => ?_⟩
  · rcases (h3 e).1 he with ⟨he, hne⟩ | ⟨s, s', hs, rfl, hor⟩
    · refine (h.sets e he).congr (fun r => ?_)
      rw [List.mem_append, List.mem_singleton]
      refine ⟨.inl, fun hr => hr.elim id (fun hr => ?_)⟩
      exact absurd (congrArg Prod.fst hr) hne
    · obtain ⟨s'', hs'', hc⟩ := add_closure hg ha (hcl s hor)
      have hs : addNode g (g.size + 1) s a.2 = some s' := hs
      rw [hs] at hs''
      cases hs''
      refine hc.congr (fun r => ?_)
      rw [List.mem_append, List.mem_singleton]
      refine or_congr Iff.rfl ⟨fun hr => by rw [hr], fun hr => congrArg Prod.snd hr⟩
  · constructor
    · rintro ⟨e, he, rfl⟩
      rcases (h3 e).1 he with ⟨he, _⟩ | ⟨s, s', _, rfl, _⟩
      · obtain ⟨m, hm⟩ := (h.has e.1).1 ⟨e, he, rfl⟩
        exact ⟨m, List.mem_append_left _ hm⟩
      · exact ⟨a.2, List.mem_append_right _ (List.mem_singleton.2 rfl)⟩
    · rintro ⟨m, hm⟩
      have hput : (∃ e ∈ T', e.1 = a.1) := by
        by_cases hex : ∃ e ∈ T, e.1 = a.1
        · obtain ⟨e, he, hea⟩ := hex
          have hmem : (a.1, e.2) ∈ T := by rw [← hea]; exact he
          obtain ⟨s', hs', _⟩ := add_closure hg ha (hcl e.2 (.inr hmem))
          exact ⟨(a.1, s'), (h3 _).2 (.inr ⟨e.2, s', hs', rfl, .inr hmem⟩), rfl⟩
        · have hno : ∀ e ∈ T, e.1 ≠ a.1 := fun e he hea => hex ⟨e, he, hea⟩
          obtain ⟨s', hs', _⟩ := add_closure hg ha (hcl [] (.inl ⟨rfl, hno⟩))
          exact ⟨(a.1, s'), (h3 _).2 (.inr ⟨[], s', hs', rfl, .inl ⟨rfl, hno⟩⟩), rfl⟩
      by_cases hla : l = a.1
      · rw [hla]; exact hput
      · rcases List.mem_append.1 hm with hm | hm
        · obtain ⟨e, he, hel⟩ := (h.has l).2 ⟨m, hm⟩
          exact ⟨e, (h3 e).2 (.inl ⟨he, fun h => hla (hel ▸ h)⟩), hel⟩
        · rw [List.mem_singleton] at hm
          exact absurd (congrArg Prod.fst hm) hla

theorem foldlM_table {g : Graph} (hg : g.Closed) (L : List (Label × Nat)) :
    ∀ (L0 : List (Label × Nat)) (T : List (Label × List Nat)), (∀ a ∈ L, a.2 < g.size) → Table g L0 T →
      ∃ T', L.foldlM (fun m arc => updateSet (fun s => addNode g (g.size + 1) s arc.2) arc.1 m) T = some T' ∧
        Table g (L0 ++ L) T' := by
  induction L with
  | nil => intro L0 T _ h; exact ⟨T, rfl, by rwa [List.append_nil]⟩
  | cons a L ih =>
    intro L0 T hL h
    obtain ⟨T1, h1, H1⟩ := update_table hg h (hL a (List.mem_cons_self ..))
    obtain ⟨T2, h2, H2⟩ := ih (L0 ++ [a]) T1 (fun c hc => hL c (List.mem_cons_of_mem _ hc)) H1
    refine ⟨T2, ?_, by rwa [List.append_assoc] at H2⟩
    rw [List.foldlM_cons]
    show (updateSet _ a.1 T).bind _ = _
    rw [h1]
    exact h2

/-- The steps given to `NodeSet::add` suffice. -/
theorem labelSets_total {g : Graph} (hg : g.Closed) {na : NodeArray} (hn : ∀ n ∈ na.nodes, n < g.size) :
    ∃ T, labelSets g na = some T ∧ Table g (na.nodes.flatMap (fun n => (g.node n).otherArcs)) T := by
  have := foldlM_table hg (na.nodes.flatMap (fun n => (g.node n).otherArcs)) [] [] (fun a ha => by
    obtain ⟨n, hn', ha⟩ := List.mem_flatMap.1 ha
    exact hg.2 n (hn n hn') a (mem_otherArcs.1 ha).1)
    ⟨List.Pairwise.nil, (by intro e he; cases he), fun l => ⟨(by rintro ⟨e, he, _⟩; cases he),
      (by rintro ⟨m, hm⟩; cases hm)⟩⟩
  exact this

/-! ## Transitions between node arrays -/

/-- A node array is that of a set closed under epsilon arcs. -/
def IsArray (g : Graph) (k : NodeArray) (R : Nat → Prop) : Prop :=
  ∃ ns, Closure g ns R ∧ k = NodeArray.of g ns

theorem IsArray.low {g : Graph} {k : NodeArray} {R : Nat → Prop} (h : IsArray g k R) :
    ∀ n ∈ k.nodes, n < g.size := by
  obtain ⟨ns, h, rfl⟩ := h
  intro n hn
  exact h.low n (List.mem_filter.1 hn).1

/-- All node arrays there can be. -/
def arrays (n : Nat) : List NodeArray :=
  (subs (List.range n)).flatMap (fun s => [NodeArray.mk s true, NodeArray.mk s false])

theorem IsArray.universe {g : Graph} {k : NodeArray} {R : Nat → Prop} (h : IsArray g k R) :
    k ∈ arrays g.size := by
  have hl := h.low
  obtain ⟨ns, h, rfl⟩ := h
  refine List.mem_flatMap.2 ⟨_, sorted_mem_subs (h.sorted.filter _) hl, ?_⟩
  show NodeArray.mk _ _ ∈ _
  cases hf : (ns.any fun n => (g.node n).final) with
  | false => exact List.mem_cons_of_mem _ (List.mem_cons_self ..)
  | true => exact List.mem_cons_self ..

theorem mem_transitions {g : Graph} (hg : g.Closed) {k : NodeArray} {R : Nat → Prop} (h : IsArray g k R) :
    (∀ c ∈ computeTransitions g k, c.1 ≠ ⟨0, 0⟩ ∧ (∃ r n m, R r ∧ g.EpsReach r n ∧ g.Step n c.1 m) ∧
      IsArray g c.2 (fun m => ∃ r n, R r ∧ g.EpsReach r n ∧ g.Step n c.1 m)) ∧
    (∀ r n l m, R r → g.EpsReach r n → l ≠ ⟨0, 0⟩ → g.Step n l m → ∃ k', (l, k') ∈ computeTransitions g k) ∧
    ((computeTransitions g k).map (fun c => c.1)).Nodup := by
  obtain ⟨T, hT, H⟩ := labelSets_total hg h.low
  obtain ⟨ns, hns, rfl⟩ := h
  have hcomp : computeTransitions g (NodeArray.of g ns) = T.map (fun e => (e.1, NodeArray.of g e.2)) := by
    unfold computeTransitions
    rw [hT]
    rfl
  have harc : ∀ l m, (l, m) ∈ (NodeArray.of g ns).nodes.flatMap (fun n => (g.node n).otherArcs) ↔
      l ≠ ⟨0, 0⟩ ∧ ∃ r n, R r ∧ g.EpsReach r n ∧ g.Step n l m := by
    intro l m
    rw [List.mem_flatMap]
    constructor
    · rintro ⟨n, hn, ha⟩
      obtain ⟨hn, _⟩ := List.mem_filter.1 hn
      obtain ⟨ha, hl⟩ := mem_otherArcs.1 ha
      obtain ⟨r, hr, hrn⟩ := (hns.mem n).1 hn
      exact ⟨hl, r, n, hr, hrn, ha⟩
    · rintro ⟨hl, r, n, hr, hrn, hs⟩
      have ha : (l, m) ∈ (g.node n).otherArcs := mem_otherArcs.2 ⟨hs, hl⟩
      refine ⟨n, List.mem_filter.2 ⟨(hns.mem n).2 ⟨r, hr, hrn⟩, ?_⟩, ha⟩
      cases hh : (g.node n).otherArcs with
      | nil => rw [hh] at ha; cases ha
      | cons _ _ => rfl
  rw [hcomp]
  refine ⟨fun c hc => ?_, fun r n l m hr hrn hl hs => ?_, ?_⟩
  · obtain ⟨e, he, rfl⟩ := List.mem_map.1 hc
    obtain ⟨m, hm⟩ := (H.has e.1).1 ⟨e, he, rfl⟩
    obtain ⟨hl, r, n, h1, h2, h3⟩ := (harc e.1 m).1 hm
    refine ⟨hl, ⟨r, n, m, h1, h2, h3⟩, e.2, (H.sets e he).congr (fun m => ?_), rfl⟩
    rw [harc]
    exact ⟨fun h => h.2, fun h => ⟨hl, h⟩⟩
  · obtain ⟨e, he, rfl⟩ := (H.has l).2 ⟨m, (harc l m).2 ⟨hl, r, n, hr, hrn, hs⟩⟩
    exact ⟨NodeArray.of g e.2, List.mem_map.2 ⟨e, he, rfl⟩⟩
  · rw [List.map_map]
    refine (List.pairwise_map.2 (H.ordered.imp ?_))
    intro a b hab h
    have h : a.1 = b.1 := h
    rw [h, before_irrefl] at hab
    cases hab

theorem mem_subs_mem {α : Type} {xs ys : List α} (h : ys ∈ subs xs) : ∀ y ∈ ys, y ∈ xs := by
  induction xs generalizing ys with
  | nil =>
    rw [subs, List.mem_singleton] at h
    subst h
    intro y hy; cases hy
  | cons x xs ih =>
    rw [subs] at h
    intro y hy
    rcases List.mem_append.1 h with h | h
    · exact List.mem_cons_of_mem _ (ih h y hy)
    · obtain ⟨zs, hz, rfl⟩ := List.mem_map.1 h
      rcases List.mem_cons.1 hy with rfl | hy
      · exact List.mem_cons_self ..
      · exact List.mem_cons_of_mem _ (ih hz y hy)

theorem length_universe (n : Nat) : (arrays n).length = 2 ^ n * 2 := by
  unfold arrays
  have h : (subs (List.range n)).length = 2 ^ n := by rw [length_subs, List.length_range]
  rw [List.length_flatMap, ← h]
  generalize subs (List.range n) = L
  induction L with
  | nil => rfl
  | cons x xs ih =>
    rw [List.map_cons, List.sum_cons, ih, List.length_cons]
    simp only [List.length_cons, List.length_nil]
    omega

theorem transitions_universe {g : Graph} (hg : g.Closed) :
    ∀ k ∈ arrays g.size, ∀ a ∈ computeTransitions g k, a.2 ∈ arrays g.size := by
  intro k hk a ha
  have hlow : ∀ n ∈ k.nodes, n < g.size := by
    obtain ⟨s, hs, hk⟩ := List.mem_flatMap.1 hk
    have : k.nodes = s := by
      rcases List.mem_cons.1 hk with rfl | hk
      · rfl
      · rcases List.mem_cons.1 hk with rfl | hk
        · rfl
        · cases hk
    rw [this]
    exact fun n hn => List.mem_range.1 (mem_subs_mem hs n hn)
  obtain ⟨T, hT, H⟩ := labelSets_total hg hlow
  unfold computeTransitions at ha
  rw [hT] at ha
  obtain ⟨e, he, rfl⟩ := List.mem_map.1 ha
  exact IsArray.universe ⟨e.2, H.sets e he, rfl⟩

/-- Taking a sequence: first some arcs 0:0. -/
theorem takes_eps {g : Graph} {n : Nat} {w : List Label} :
    g.Takes n w ↔ ∃ m, g.EpsReach n m ∧ ((w = [] ∧ (g.node m).final = true) ∨
      ∃ l v p, w = l :: v ∧ l ≠ ⟨0, 0⟩ ∧ g.Step m l p ∧ g.Takes p v) := by
  constructor
  · intro h
    unfold Graph.Takes at h
    induction h with
    | stop hf => exact ⟨_, .refl, .inl ⟨rfl, hf⟩⟩
    | skip hs _ ih =>
      obtain ⟨m, hm, h⟩ := ih
      exact ⟨m, .step hs hm, h⟩
    | read hl hs hrest _ => exact ⟨_, .refl, .inr ⟨_, _, _, rfl, hl, hs, hrest⟩⟩
  · rintro ⟨m, hm, h⟩
    induction hm with
    | refl =>
      rcases h with ⟨rfl, hf⟩ | ⟨l, v, p, rfl, hl, hs, hrest⟩
      · exact .stop hf
      · exact .read hl hs hrest
    | step hs _ ih => exact .skip hs (ih h)

theorem kTakes_cases {K : Type} {succ : K → List (Label × K)} {final : K → Bool} {k : K} {w : List Label}
    (hk : ∀ c ∈ succ k, c.1 ≠ ⟨0, 0⟩) :
    KTakes succ final k w ↔ (w = [] ∧ final k = true) ∨
      ∃ l v k', w = l :: v ∧ (l, k') ∈ succ k ∧ KTakes succ final k' v := by
  constructor
  · intro h
    cases h with
    | stop hf => exact .inl ⟨rfl, hf⟩
    | skip hs _ => exact absurd rfl (hk _ hs)
    | read _ hs hrest => exact .inr ⟨_, _, _, rfl, hs, hrest⟩
  · rintro (⟨rfl, hf⟩ | ⟨l, v, k', rfl, hs, hrest⟩)
    · exact .stop hf
    · exact .read (hk _ hs) hs hrest

/-- What is accepted from a node array: what is accepted from one of the nodes it was made from. -/
theorem array_takes {g : Graph} (hg : g.Closed) (w : List Label) :
    ∀ {k : NodeArray} {R : Nat → Prop}, IsArray g k R →
      (KTakes (computeTransitions g) (fun k => k.final) k w ↔ ∃ r, R r ∧ g.Takes r w) := by
  induction w with
  | nil =>
    intro k R h
    rw [kTakes_cases (fun c hc => ((mem_transitions hg h).1 c hc).1)]
    obtain ⟨ns, hns, rfl⟩ := h
    constructor
    · rintro (⟨_, hf⟩ | ⟨_, _, _, h, _⟩)
      · have hf : ns.any (fun n => (g.node n).final) = true := hf
        obtain ⟨n, hn, hf⟩ := List.any_eq_true.1 hf
        obtain ⟨r, hr, hrn⟩ := (hns.mem n).1 hn
        exact ⟨r, hr, takes_eps.2 ⟨n, hrn, .inl ⟨rfl, hf⟩⟩⟩
      · cases h
    · rintro ⟨r, hr, ht⟩
      obtain ⟨m, hm, ⟨_, hf⟩ | ⟨_, _, _, h, _⟩⟩ := takes_eps.1 ht
      · refine .inl ⟨rfl, ?_⟩
        show ns.any (fun n => (g.node n).final) = true
        exact List.any_eq_true.2 ⟨m, (hns.mem m).2 ⟨r, hr, hm⟩, hf⟩
      · cases h
  | cons l v ih =>
    intro k R h
    obtain ⟨h1, h2, h3⟩ := mem_transitions hg h
    rw [kTakes_cases (fun c hc => (h1 c hc).1)]
    constructor
    · rintro (⟨h, _⟩ | ⟨l', v', k', he, hk, hrest⟩)
      · cases h
      · cases he
        obtain ⟨hl, _, ha⟩ := h1 _ hk
        obtain ⟨m, ⟨r, n, hr, hrn, hs⟩, ht⟩ := (ih ha).1 hrest
        exact ⟨r, hr, takes_eps.2 ⟨n, hrn, .inr ⟨l, v, m, rfl, hl, hs, ht⟩⟩⟩
    · rintro ⟨r, hr, ht⟩
      obtain ⟨n, hrn, ⟨h, _⟩ | ⟨l', v', m, he, hl, hs, hrest⟩⟩ := takes_eps.1 ht
      · cases h
      · cases he
        obtain ⟨k', hk⟩ := h2 r n l m hr hrn hl hs
        exact .inr ⟨l, v, k', rfl, hk, (ih (h1 _ hk).2.2).2 ⟨m, ⟨r, n, hr, hrn, hs⟩, hrest⟩⟩

/-- Node arrays in reach of that of the root. -/
theorem kreach_array {g : Graph} (hg : g.Closed) {k k' : NodeArray} (h : KReach (computeTransitions g) k k') :
    (∃ R, IsArray g k R) → ∃ R, IsArray g k' R := by
  induction h with
  | refl => exact id
  | step hs _ ih => rintro ⟨R, hR⟩; exact ih ⟨_, ((mem_transitions hg hR).1 _ hs).2.2⟩

/-- The key of the root and what `determinise` builds. -/
theorem determinise_built {F : Fst} (hF : F.graph.Closed) (hd : F.deterministic = false) (ca : Bool) :
    ∃ k0 b, F.determinise ca = some ⟨b.graph, true, false, if ca then copyPairs [] F.pairs else []⟩ ∧
      IsArray F.graph k0 (fun r => r = 0) ∧
      Built (computeTransitions F.graph) (fun k => k.final) k0 0 Graph.fresh b := by
  obtain ⟨ns, h1, hc⟩ := add_closure hF hF.1 (closure_nil F.graph)
  have hk0 : IsArray F.graph (NodeArray.of F.graph ns) (fun r => r = 0) :=
    ⟨ns, hc.congr (fun r => ⟨fun h => h.elim False.elim id, .inr⟩), rfl⟩
  obtain ⟨b, hb, hB⟩ := explore_built (succ := computeTransitions F.graph) (final := fun k => k.final) false
    (transitions_universe hF) hk0.universe (f := 2 ^ F.graph.size * 2 + 1)
    (by rw [length_universe]; exact Nat.lt_succ_self _) (a := Graph.fresh) (n0 := 0) Nat.zero_lt_one rfl
  refine ⟨_, b, ?_, hk0, hB⟩
  unfold Fst.determinise
  rw [hd, if_neg (by simp), h1]
  show Option.map _ (explore _ _ _ _ _ _ _) = _
  rw [hb]
  rfl

end Hfst.Sfst
