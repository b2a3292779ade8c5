import Verif.Spec.SfstBasic
import Verif.Props.SfstFile
import Verif.Lemmas.Graph
import Verif.Lemmas.SfstReverse

/-!
# C87: the SFST back-end and the basic format
-/
namespace Hfst.Sfst
open Hfst.Basic (Outcome Sym)
open Hfst.Basic.Graph

/-! ## What a walk does to marks -/

theorem setMark_self (m : Nat → Nat) (n v : Nat) : setMark m n v n = v := by simp [setMark]

theorem setMark_of_ne (m : Nat → Nat) {n j : Nat} (v : Nat) (h : j ≠ n) : setMark m n v j = m j := by simp [setMark, h]

/-- A walk from the nodes `R` with the mark `v`. -/
structure Swept (g : Graph) (v : Nat) (R : List Nat) (m m' : Nat → Nat) : Prop where
  keeps : ∀ j, m j = v → m' j = v
  old : ∀ j, m' j = v ∨ m' j = m j
  closed : ∀ j, m' j = v → m j ≠ v → ∀ a ∈ (g.node j).arcs, m' a.2 = v
  reached : ∀ j, m' j = v → m j ≠ v → ∃ r ∈ R, g.Reach r j
  roots : ∀ r ∈ R, m' r = v

theorem Swept.nil (g : Graph) (v : Nat) (m : Nat → Nat) : Swept g v [] m m :=
  ⟨fun _ h => h, fun _ => .inr rfl, fun _ h h' => absurd h h', fun _ h h' => absurd h h', fun _ h => by cases h⟩

theorem Swept.hit {g : Graph} {v n : Nat} {m : Nat → Nat} (h : m n = v) : Swept g v [n] m m :=
  ⟨fun _ h => h, fun _ => .inr rfl, fun _ h h' => absurd h h', fun _ h h' => absurd h h',
    fun r hr => by rw [List.mem_singleton.1 hr]; exact h⟩

theorem Swept.seq {g : Graph} {v n : Nat} {R : List Nat} {m m1 m2 : Nat → Nat} (h1 : Swept g v [n] m m1) (h2 : Swept g v R m1 m2) :
    Swept g v (n :: R) m m2 := by
  refine ⟨fun j h => h2.keeps j (h1.keeps j h), fun j => ?_, fun j h h' a ha => ?_, fun j h h' => ?_, fun r hr => ?_⟩
  · rcases h2.old j with h | h
    · exact .inl h
    · rw [h]; exact h1.old j
  · by_cases hj : m1 j = v
    · exact h2.keeps _ (h1.closed j hj h' a ha)
    · exact h2.closed j h hj a ha
  · by_cases hj : m1 j = v
    · obtain ⟨r, hr, hh⟩ := h1.reached j hj h'
      rw [List.mem_singleton.1 hr] at hh
      exact ⟨n, List.mem_cons_self .., hh⟩
    · obtain ⟨r, hr, hh⟩ := h2.reached j h hj
      exact ⟨r, List.mem_cons_of_mem _ hr, hh⟩
  · rcases List.mem_cons.1 hr with rfl | hr
    · exact h2.keeps _ (h1.roots _ (List.mem_singleton.2 rfl))
    · exact h2.roots r hr

theorem Swept.node {g : Graph} {v n : Nat} {m m' : Nat → Nat}
    (h : Swept g v ((g.node n).iter.map (fun a => a.2)) (setMark m n v) m') : Swept g v [n] m m' := by
  have hn : m' n = v := h.keeps n (setMark_self ..)
  refine ⟨fun j hj => ?_, fun j => ?_, fun j hj hj' a ha => ?_, fun j hj hj' => ?_, fun r hr => ?_⟩
  · by_cases e : j = n
    · rw [e]; exact hn
    · exact h.keeps j (by rw [setMark_of_ne m v e]; exact hj)
  · by_cases e : j = n
    · rw [e]; exact .inl hn
    · rcases h.old j with h | h
      · exact .inl h
      · rw [setMark_of_ne m v e] at h; exact .inr h
  · by_cases e : j = n
    · subst e
      exact h.roots _ (List.mem_map.2 ⟨a, (iter_perm _).mem_iff.2 ha, rfl⟩)
    · exact h.closed j hj (by rw [setMark_of_ne m v e]; exact hj') a ha
  · by_cases e : j = n
    · rw [e]; exact ⟨n, List.mem_singleton.2 rfl, .refl⟩
    · obtain ⟨r, hr, hh⟩ := h.reached j hj (by rw [setMark_of_ne m v e]; exact hj')
      obtain ⟨a, ha, rfl⟩ := List.mem_map.1 hr
      exact ⟨n, List.mem_singleton.2 rfl, .step (l := a.1) ((iter_perm _).mem_iff.1 ha) hh⟩
  · rw [List.mem_singleton.1 hr]; exact hn

/-- With a mark that no node in reach has, a walk from the root marks the nodes in reach and no others. -/
theorem Swept.all {g : Graph} {v : Nat} {m m' : Nat → Nat} (h : Swept g v [0] m m') (hm : ∀ n, g.Reach 0 n → m n ≠ v) {j : Nat} :
    g.Reach 0 j → m' j = v := by
  have key : ∀ n p, g.Reach n p → g.Reach 0 n → m' n = v → m' p = v := by
    intro n p hp
    induction hp with
    | refl => exact fun _ h => h
    | @step n q p l hs _ ih =>
      intro h0 hv
      exact ih (reach_step h0 hs) (h.closed n hv (hm n h0) (l, q) hs)
  exact fun hj => key 0 j hj .refl (h.roots 0 (List.mem_singleton.2 rfl))

/-- How many nodes do not have the mark. -/
def unseen (size v : Nat) (m : Nat → Nat) : Nat := ((List.range size).filter (fun j => !decide (m j = v))).length

theorem unseen_le {size v : Nat} {m m' : Nat → Nat} (h : ∀ j, m j = v → m' j = v) : unseen size v m' ≤ unseen size v m := by
  apply filter_length_le
  intro j _ hj
  simp only [Bool.not_eq_true', decide_eq_false_iff_not] at hj ⊢
  exact fun h' => hj (h j h')

theorem unseen_setMark {size v n : Nat} {m : Nat → Nat} (hn : n < size) (h : m n ≠ v) :
    unseen size v (setMark m n v) < unseen size v m := by
  apply filter_length_lt (List.mem_range.2 hn)
  · intro j _ hj
    simp only [Bool.not_eq_true', decide_eq_false_iff_not] at hj ⊢
    intro h'
    apply hj
    by_cases e : j = n
    · rw [e]; exact setMark_self ..
    · rw [setMark_of_ne m v e]; exact h'
  · simp [setMark_self]
  · simp [h]

theorem unseen_size (size v : Nat) (m : Nat → Nat) : unseen size v m ≤ size := by
  unfold unseen
  have := List.length_filter_le (fun j => !decide (m j = v)) (List.range size)
  rw [List.length_range] at this
  exact this

/-! ## Numbering -/

/-- The nodes of the walk, each once. -/
def Listed (v : Nat) (s s' : List Nat × (Nat → Nat)) : Prop :=
  ∃ l, s'.1 = s.1 ++ l ∧ l.Nodup ∧ ∀ j, j ∈ l ↔ s'.2 j = v ∧ s.2 j ≠ v

theorem Listed.seq {v : Nat} {s s1 s2 : List Nat × (Nat → Nat)} (h1 : Listed v s s1) (h2 : Listed v s1 s2)
    (k1 : ∀ j, s.2 j = v → s1.2 j = v) (k2 : ∀ j, s1.2 j = v → s2.2 j = v) : Listed v s s2 := by
  obtain ⟨l1, e1, n1, m1⟩ := h1
  obtain ⟨l2, e2, n2, m2⟩ := h2
  refine ⟨l1 ++ l2, by rw [e2, e1, List.append_assoc], ?_, fun j => ?_⟩
  · rw [List.nodup_append]
    exact ⟨n1, n2, fun a ha b hb e => ((m2 b).1 hb).2 (e ▸ ((m1 a).1 ha).1)⟩
  · rw [List.mem_append, m1, m2]
    constructor
    · rintro (⟨h, h'⟩ | ⟨h, h'⟩)
      · exact ⟨k2 j h, h'⟩
      · exact ⟨h, fun h3 => h' (k1 j h3)⟩
    · rintro ⟨h, h'⟩
      by_cases h3 : s1.2 j = v
      · exact .inl ⟨h3, h'⟩
      · exact .inr ⟨h, h3⟩

theorem markWalk_ok {g : Graph} (hg : g.Closed) (v : Nat) (f : Nat) :
    ∀ n s, n < g.size → unseen g.size v s.2 < f →
      ∃ s', markWalk g v f n s = some s' ∧ Swept g v [n] s.2 s'.2 ∧ Listed v s s' := by
  induction f with
  | zero => exact fun _ _ _ h => absurd h (Nat.not_lt_zero _)
  | succ f ih =>
    intro n s hn hw
    by_cases hm : s.2 n = v
    · exact ⟨s, by rw [markWalk, if_pos hm], .hit hm, [], by simp, List.nodup_nil, fun j => by simp⟩
    · have key : ∀ (L : List (Label × Nat)) (s : List Nat × (Nat → Nat)), (∀ a ∈ L, a.2 < g.size) → unseen g.size v s.2 < f →
          ∃ s', L.foldlM (fun s a => markWalk g v f a.2 s) s = some s' ∧ Swept g v (L.map (fun a => a.2)) s.2 s'.2 ∧ Listed v s s' := by
        intro L
        induction L with
        | nil => exact fun s _ _ => ⟨s, rfl, .nil .., [], by simp, List.nodup_nil, fun j => by simp⟩
        | cons a L ihL =>
          intro s hL hs
          obtain ⟨s1, e1, w1, l1⟩ := ih a.2 s (hL a (List.mem_cons_self ..)) hs
          obtain ⟨s2, e2, w2, l2⟩ := ihL s1 (fun c hc => hL c (List.mem_cons_of_mem _ hc)) (Nat.lt_of_le_of_lt (unseen_le w1.keeps) hs)
          exact ⟨s2, by rw [List.foldlM_cons, e1]; exact e2, w1.seq w2, l1.seq l2 w1.keeps w2.keeps⟩
      obtain ⟨s', e', w', l'⟩ := key (g.node n).iter (s.1 ++ [n], setMark s.2 n v)
        (fun a ha => hg.2 n hn a ((iter_perm _).mem_iff.1 ha)) (by have := unseen_setMark hn hm; dsimp only; omega)
      refine ⟨s', by rw [markWalk, if_neg hm]; exact e', w'.node, ?_⟩
      have l0 : Listed v s (s.1 ++ [n], setMark s.2 n v) := by
        refine ⟨[n], rfl, by simp, fun j => ?_⟩
        rw [List.mem_singleton]
        constructor
        · rintro rfl; exact ⟨setMark_self .., hm⟩
        · rintro ⟨h1, h2⟩
          by_cases e : j = n
          · exact e
          · dsimp only at h1
            rw [setMark_of_ne _ v e] at h1; exact absurd h1 h2
      refine l0.seq l' (fun j h => ?_) w'.keeps
      dsimp only
      by_cases e : j = n
      · rw [e]; exact setMark_self ..
      · rw [setMark_of_ne _ v e]; exact h

theorem markWalk_head {g : Graph} {v f n : Nat} {m : Nat → Nat} {s' : List Nat × (Nat → Nat)} (hm : m n ≠ v)
    (h : markWalk g v f n ([], m) = some s') : ∃ l, s'.1 = n :: l := by
  have key : ∀ f n s s', markWalk g v f n s = some s' → ∃ l, s'.1 = s.1 ++ l := by
    intro f
    induction f with
    | zero => intro n s s' h; cases h
    | succ f ih =>
      intro n s s' h
      rw [markWalk] at h
      split at h
      · cases h; exact ⟨[], by simp⟩
      · have k2 : ∀ (L : List (Label × Nat)) s s', L.foldlM (fun s a => markWalk g v f a.2 s) s = some s' → ∃ l, s'.1 = s.1 ++ l := by
          intro L
          induction L with
          | nil => intro s s' h; cases h; exact ⟨[], by simp⟩
          | cons a L ihL =>
            intro s s' h
            rw [List.foldlM_cons] at h
            obtain ⟨s1, h1, h2⟩ := Option.bind_eq_some_iff.1 h
            obtain ⟨l1, e1⟩ := ih _ _ _ h1
            obtain ⟨l2, e2⟩ := ihL _ _ h2
            exact ⟨l1 ++ l2, by rw [e2, e1, List.append_assoc]⟩
        obtain ⟨l, e⟩ := k2 _ _ _ h
        exact ⟨n :: l, by rw [e]; simp⟩
  cases f with
  | zero => cases h
  | succ f =>
    rw [markWalk, if_neg hm] at h
    have k2 : ∀ (L : List (Label × Nat)) s s', L.foldlM (fun s a => markWalk g v f a.2 s) s = some s' → ∃ l, s'.1 = s.1 ++ l := by
      intro L
      induction L with
      | nil => intro s s' h; cases h; exact ⟨[], by simp⟩
      | cons a L ihL =>
        intro s s' h
        rw [List.foldlM_cons] at h
        obtain ⟨s1, h1, h2⟩ := Option.bind_eq_some_iff.1 h
        obtain ⟨l1, e1⟩ := key _ _ _ _ h1
        obtain ⟨l2, e2⟩ := ihL _ _ h2
        exact ⟨l1 ++ l2, by rw [e2, e1, List.append_assoc]⟩
    obtain ⟨l, e⟩ := k2 _ _ _ h
    exact ⟨l, by rw [e]; simp⟩

theorem graph_incr (t : Shared) : t.incr.graph = t.graph := by unfold Shared.incr; split <;> rfl
theorem codes_incr (t : Shared) : t.incr.codes = t.codes := by unfold Shared.incr; split <;> rfl
theorem order_incr (t : Shared) : t.incr.order = t.order := by unfold Shared.incr; split <;> rfl

theorem Shared.NextFree.fresh {t : Shared} (h : t.NextFree) {n : Nat} (hn : t.graph.Reach 0 n) : t.incr.mark n ≠ t.incr.vmark := by
  unfold Shared.incr
  split
  · exact Nat.zero_ne_one
  · next h' => exact (h.resolve_left h') n hn

/-- **A walk of a transducer visits the nodes in reach, each once.** -/
theorem sharedWalk_ok {t : Shared} (hc : t.graph.Closed) (hr : t.NextFree) :
    ∃ ns t', t.walk = .ok (ns, t') ∧ ns.Nodup ∧ (∃ l, ns = 0 :: l) ∧ (∀ n, n ∈ ns ↔ t.graph.Reach 0 n) ∧
      t'.graph = t.graph ∧ t'.codes = t.codes ∧ t'.order = t.order ∧ t'.vmark = t.incr.vmark ∧ t'.Uniform t.incr.vmark := by
  obtain ⟨s, e, w, l, el, nl, ml⟩ := markWalk_ok hc t.incr.vmark (t.graph.size + 2) 0 ([], t.incr.mark) hc.1
    (by have := unseen_size t.graph.size t.incr.vmark t.incr.mark; dsimp only; omega)
  have hf : ∀ n, t.graph.Reach 0 n → t.incr.mark n ≠ t.incr.vmark := fun n hn => hr.fresh hn
  have el' : s.1 = l := by rw [el]; rfl
  refine ⟨s.1, { t.incr with mark := s.2 }, ?_, by rw [el']; exact nl, markWalk_head (hf 0 .refl) e, fun n => ?_,
    graph_incr t, codes_incr t, order_incr t, rfl, fun n hn => ?_⟩
  · unfold Shared.walk
    rw [graph_incr, e]
  · rw [el', ml]
    constructor
    · rintro ⟨h1, h2⟩
      obtain ⟨r, h3, h4⟩ := w.reached n h1 h2
      rw [List.mem_singleton.1 h3] at h4
      exact h4
    · exact fun h => ⟨w.all hf h, hf n h⟩
  · have hn' : t.graph.Reach 0 n := by
      have h5 : ({ t.incr with mark := s.2 } : Shared).graph = t.graph := graph_incr t
      rw [h5] at hn; exact hn
    exact w.all hf hn'

theorem number_ok {t : Shared} {m : Nat} (hc : t.graph.Closed) (hn : t.Numbered) (hu : t.Uniform m) (hr : t.order = none → t.NextFree) :
    ∃ ns t', t.number = .ok (ns, t') ∧ ns.Nodup ∧ (∃ l, ns = 0 :: l) ∧ (∀ n, n ∈ ns ↔ t.graph.Reach 0 n) ∧
      t'.graph = t.graph ∧ t'.codes = t.codes ∧ t'.order = some ns ∧
      (t'.vmark = t.vmark ∧ t'.Uniform m ∨ t'.vmark = t.incr.vmark ∧ t'.Uniform t.incr.vmark) := by
  unfold Shared.number
  cases ho : t.order with
  | some ns =>
    obtain ⟨h1, h2, h3⟩ := hn ns ho
    exact ⟨ns, t, rfl, h1, h2, h3, rfl, rfl, ho, .inl ⟨rfl, hu⟩⟩
  | none =>
    obtain ⟨ns, t', e, h1, h2, h3, h4, h5, h6, h7, h8⟩ := sharedWalk_ok hc (hr ho)
    refine ⟨ns, { t' with order := some ns }, ?_, h1, h2, h3, h4, h5, rfl, .inr ⟨h7, h8⟩⟩
    rw [e]; rfl

/-! ## To the basic format -/

theorem biggestCode_ge {codes : List (Nat × Sym)} {c : Nat} {x : Sym} (h : (c, x) ∈ codes) : c ≤ biggestCode codes := by
  have key : ∀ (l : List (Nat × Sym)) m, m ≤ l.foldl (fun m e => if e.1 > m then e.1 else m) m ∧
      ∀ e ∈ l, e.1 ≤ l.foldl (fun m e => if e.1 > m then e.1 else m) m := by
    intro l
    induction l with
    | nil => exact fun m => ⟨Nat.le_refl _, fun e h => by cases h⟩
    | cons a l ih =>
      intro m
      rw [List.foldl_cons]
      obtain ⟨h1, h2⟩ := ih (if a.1 > m then a.1 else m)
      refine ⟨?_, fun e he => ?_⟩
      · refine Nat.le_trans ?_ h1; split <;> omega
      · rcases List.mem_cons.1 he with rfl | he
        · refine Nat.le_trans ?_ h1; split <;> omega
        · exact h2 e he
  exact (key codes 0).2 _ h

theorem codeSymbol_ok {codes : List (Nat × Sym)} (h1 : OneSymbol codes) {c : Nat} {x : Sym} (h : Stands codes c x) :
    codeSymbol codes c = .ok x := by
  unfold Stands at h
  unfold codeSymbol
  by_cases hc : c = 0
  · rw [if_pos hc] at h
    rw [if_neg (by omega), if_pos hc, h]
  · rw [if_neg hc] at h
    rw [if_neg (Nat.not_lt.2 (biggestCode_ge h)), if_neg hc]
    obtain ⟨y, hy⟩ := Option.isSome_iff_exists.1 (Hfst.Basic.mapGet_isSome_of_mem h)
    rw [hy, h1 c y x (Hfst.Basic.mapGet_mem hy) h]
    rfl

/-- A transition of the result. -/
def mkArc (φ : Nat → Nat) (sym : Nat → Sym) (a : Label × Nat) : Hfst.Basic.Arc := ⟨φ a.2, sym a.1.lower, sym a.1.upper, 0⟩

theorem importArcs_ok {index : Nat → Option Nat} {codes : List (Nat × Sym)} {φ : Nat → Nat} {sym : Nat → Sym} {N s : Nat} (hN : s < N)
    (h1 : OneSymbol codes) (L : List (Label × Nat)) :
    ∀ b : Hfst.Basic.Graph, b.states.length ≤ N → s < b.states.length →
      (∀ a ∈ L, index a.2 = some (φ a.2) ∧ φ a.2 < N ∧ Stands codes a.1.lower (sym a.1.lower) ∧ Stands codes a.1.upper (sym a.1.upper)) →
      ∃ b', importArcs index codes s L b = .ok b' ∧ b.states.length ≤ b'.states.length ∧ b'.states.length ≤ N ∧
        (∀ i, b'.arcs i = if i = s then b.arcs s ++ L.map (mkArc φ sym) else b.arcs i) ∧ (∀ i, b'.final i = b.final i) ∧
        b'.alphabet = b.alphabet := by
  induction L with
  | nil =>
    intro b hb hs _
    refine ⟨b, rfl, Nat.le_refl _, hb, fun i => ?_, fun _ => rfl, rfl⟩
    split
    · next e => rw [e]; simp
    · rfl
  | cons a L ih =>
    intro b hb hs hL
    obtain ⟨e1, e2, e3, e4⟩ := hL a (List.mem_cons_self ..)
    obtain ⟨b', r1, r2, r3, r4, r5, r6⟩ := ih (b.addTransition s (mkArc φ sym a) false)
      (by rw [length_addTransition]; show max (max b.states.length (s + 1)) (φ a.2 + 1) ≤ N; omega)
      (by rw [length_addTransition]; omega) (fun c hc => hL c (List.mem_cons_of_mem _ hc))
    refine ⟨b', ?_, ?_, r3, fun i => ?_, fun i => by rw [r5, final_addTransition], r6⟩
    · rw [importArcs, e1]
      dsimp only
      rw [codeSymbol_ok h1 e3, codeSymbol_ok h1 e4]
      exact r1
    · rw [length_addTransition] at r2; omega
    · rw [r4, arcs_addTransition, arcs_addTransition, if_pos rfl]
      split
      · simp [List.append_assoc]
      · rfl

/-- What the conversion of the nodes newly marked does to the result. -/
structure Imported (g : Graph) (v N : Nat) (φ : Nat → Nat) (sym : Nat → Sym) (s s' : Hfst.Basic.Graph × (Nat → Nat)) : Prop where
  new : ∀ j, s'.2 j = v → s.2 j ≠ v → φ j < s'.1.states.length ∧ s'.1.arcs (φ j) = (g.node j).iter.map (mkArc φ sym) ∧
    s'.1.final (φ j) = if (g.node j).final then some 0 else none
  same : ∀ i, (∀ j, s'.2 j = v → s.2 j ≠ v → φ j ≠ i) → s'.1.arcs i = s.1.arcs i ∧ s'.1.final i = s.1.final i
  grown : s.1.states.length ≤ s'.1.states.length
  low : s'.1.states.length ≤ N
  alphabet : s'.1.alphabet = s.1.alphabet

/-- Nothing is in the result yet for the nodes that are not marked. -/
def CleanFor (g : Graph) (v : Nat) (φ : Nat → Nat) (s : Hfst.Basic.Graph × (Nat → Nat)) : Prop :=
  ∀ j, g.Reach 0 j → s.2 j ≠ v → s.1.arcs (φ j) = [] ∧ s.1.final (φ j) = none

theorem Imported.seq {g : Graph} {v N : Nat} {φ : Nat → Nat} {sym : Nat → Sym} {s s1 s2 : Hfst.Basic.Graph × (Nat → Nat)}
    (hinj : ∀ n m, g.Reach 0 n → g.Reach 0 m → φ n = φ m → n = m)
    (h1 : Imported g v N φ sym s s1) (h2 : Imported g v N φ sym s1 s2) (k1 : ∀ j, s.2 j = v → s1.2 j = v)
    (k2 : ∀ j, s1.2 j = v → s2.2 j = v) (hr : ∀ j, s2.2 j = v → s.2 j ≠ v → g.Reach 0 j) : Imported g v N φ sym s s2 := by
  refine ⟨fun j hj hj' => ?_, fun i hi => ?_, Nat.le_trans h1.grown h2.grown, h2.low, h2.alphabet.trans h1.alphabet⟩
  · by_cases h : s1.2 j = v
    · obtain ⟨a1, a2, a3⟩ := h1.new j h hj'
      obtain ⟨b1, b2⟩ := h2.same (φ j) (fun p hp hp' e => by
        have := hinj p j (hr p hp (fun h' => hp' (k1 p h'))) (hr j hj hj') e
        exact hp' (this ▸ h))
      exact ⟨Nat.lt_of_lt_of_le a1 h2.grown, b1.trans a2, b2.trans a3⟩
    · exact h2.new j hj h
  · obtain ⟨a1, a2⟩ := h1.same i (fun j hj hj' => hi j (k2 j hj) hj')
    obtain ⟨b1, b2⟩ := h2.same i (fun j hj hj' => hi j hj (fun h => hj' (k1 j h)))
    exact ⟨b1.trans a1, b2.trans a2⟩

theorem CleanFor.next {g : Graph} {v N : Nat} {φ : Nat → Nat} {sym : Nat → Sym} {s s1 : Hfst.Basic.Graph × (Nat → Nat)}
    (hinj : ∀ n m, g.Reach 0 n → g.Reach 0 m → φ n = φ m → n = m) (hc : CleanFor g v φ s) (h : Imported g v N φ sym s s1)
    (k : ∀ j, s.2 j = v → s1.2 j = v) (hr : ∀ j, s1.2 j = v → s.2 j ≠ v → g.Reach 0 j) : CleanFor g v φ s1 := by
  intro j hj hm
  obtain ⟨a1, a2⟩ := h.same (φ j) (fun p hp hp' e => by
    have := hinj p j (hr p hp hp') hj e
    exact hm (this ▸ hp))
  obtain ⟨b1, b2⟩ := hc j hj (fun h' => hm (k j h'))
  exact ⟨a1.trans b1, a2.trans b2⟩

theorem importNode_ok {t : Shared} (hg : t.graph.Closed) {index : Nat → Option Nat} {φ : Nat → Nat} {sym : Nat → Sym} {N : Nat} (v : Nat)
    (h1 : OneSymbol t.codes) (hsym : t.Symbolic sym) (hinj : ∀ n m, t.graph.Reach 0 n → t.graph.Reach 0 m → φ n = φ m → n = m)
    (hidx : ∀ n, t.graph.Reach 0 n → index n = some (φ n) ∧ φ n < N) (f : Nat) :
    ∀ n s, t.graph.Reach 0 n → s.1.states.length ≤ N → CleanFor t.graph v φ s → unseen t.graph.size v s.2 < f →
      ∃ s', importNode index t.codes t.graph v f n s = .ok s' ∧ Swept t.graph v [n] s.2 s'.2 ∧ Imported t.graph v N φ sym s s' := by
  induction f with
  | zero => exact fun _ _ _ _ _ h => absurd h (Nat.not_lt_zero _)
  | succ f ih =>
    intro n s hn hlen hclean hw
    by_cases hm : s.2 n = v
    · exact ⟨s, by rw [importNode, if_pos hm], .hit hm, fun j h h' => absurd h h', fun i _ => ⟨rfl, rfl⟩, Nat.le_refl _, hlen, rfl⟩
    · have key : ∀ (L : List (Label × Nat)) (s : Hfst.Basic.Graph × (Nat → Nat)), (∀ a ∈ L, t.graph.Reach 0 a.2) →
          s.1.states.length ≤ N → CleanFor t.graph v φ s → unseen t.graph.size v s.2 < f →
          ∃ s', steps (fun s (a : Label × Nat) => importNode index t.codes t.graph v f a.2 s) L s = .ok s' ∧
            Swept t.graph v (L.map (fun a => a.2)) s.2 s'.2 ∧ Imported t.graph v N φ sym s s' := by
        intro L
        induction L with
        | nil =>
          exact fun s _ hs _ _ => ⟨s, rfl, .nil .., fun j h h' => absurd h h', fun i _ => ⟨rfl, rfl⟩, Nat.le_refl _, hs, rfl⟩
        | cons a L ihL =>
          intro s hL hs hcl hu
          have ha := hL a (List.mem_cons_self ..)
          obtain ⟨s1, e1, w1, i1⟩ := ih a.2 s ha hs hcl hu
          have r1 : ∀ j, s1.2 j = v → s.2 j ≠ v → t.graph.Reach 0 j := by
            intro j hj hj'
            obtain ⟨r, hr, h⟩ := w1.reached j hj hj'
            rw [List.mem_singleton.1 hr] at h
            exact ha.trans h
          obtain ⟨s2, e2, w2, i2⟩ := ihL s1 (fun c hc => hL c (List.mem_cons_of_mem _ hc)) i1.low (hcl.next hinj i1 w1.keeps r1)
            (Nat.lt_of_le_of_lt (unseen_le w1.keeps) hu)
          have w := w1.seq w2
          refine ⟨s2, by rw [steps, e1]; exact e2, w, i1.seq hinj i2 w1.keeps w2.keeps fun j hj hj' => ?_⟩
          obtain ⟨r, hr, h⟩ := w.reached j hj hj'
          rcases List.mem_cons.1 hr with rfl | hr
          · exact ha.trans h
          · obtain ⟨c, hc, rfl⟩ := List.mem_map.1 hr
            exact (hL c (List.mem_cons_of_mem _ hc)).trans h
      have hsucc : ∀ a ∈ (t.graph.node n).iter, t.graph.Reach 0 a.2 :=
        fun a ha => reach_step (l := a.1) hn ((iter_perm _).mem_iff.1 ha)
      obtain ⟨hi, hl⟩ := hidx n hn
      obtain ⟨c1, c2⟩ := hclean n hn hm
      obtain ⟨b, eb, b1, b2, b3, b4, b5⟩ := importArcs_ok (index := index) (codes := t.codes) (φ := φ) (sym := sym) hl h1
        (t.graph.node n).iter (s.1.addStateN (φ n)) (by rw [length_addStateN]; omega) (by rw [length_addStateN]; omega)
        (fun a ha => ⟨(hidx _ (hsucc a ha)).1, (hidx _ (hsucc a ha)).2, hsym n hn a ((iter_perm _).mem_iff.1 ha)⟩)
      rw [length_addStateN] at b1
      let b' : Hfst.Basic.Graph := if (t.graph.node n).final then b.setFinal (φ n) 0 else b
      have hb' : b' = if (t.graph.node n).final then b.setFinal (φ n) 0 else b := rfl
      have hmem : ∀ j, setMark s.2 n v j = v → s.2 j ≠ v → j = n := by
        intro j h h'
        by_cases e : j = n
        · exact e
        · rw [setMark_of_ne _ v e] at h; exact absurd h h'
      have i0 : Imported t.graph v N φ sym s (b', setMark s.2 n v) := by
        have l1 : s.1.states.length ≤ b'.states.length ∧ b'.states.length ≤ N ∧ φ n < b'.states.length := by
          rw [hb']; split
          · rw [length_setFinal]; omega
          · omega
        have l2 : ∀ i, b'.arcs i = b.arcs i := by
          intro i; rw [hb']; split
          · rw [arcs_setFinal]
          · rfl
        have l3 : ∀ i, b'.final i = if i = φ n then (if (t.graph.node n).final then some 0 else none) else s.1.final i := by
          intro i
          rw [hb']
          by_cases hf : (t.graph.node n).final = true
          · rw [if_pos hf, if_pos hf, final_setFinal, b4, final_addStateN]
          · rw [if_neg hf, if_neg hf, b4, final_addStateN]
            split
            · next e => rw [e, c2]
            · rfl
        refine ⟨fun j h h' => ?_, fun i h => ?_, l1.1, l1.2.1, ?_⟩
        · rw [hmem j h h']
          refine ⟨l1.2.2, ?_, ?_⟩
          · dsimp only
            rw [l2, b3, if_pos rfl, arcs_addStateN, c1]
            rfl
          · dsimp only
            rw [l3, if_pos rfl]
        · have hne : i ≠ φ n := fun e => h n (setMark_self ..) hm e.symm
          dsimp only
          rw [l2, b3, if_neg hne, arcs_addStateN, l3, if_neg hne]
          exact ⟨rfl, rfl⟩
        · dsimp only
          rw [hb']; split
          · exact b5
          · exact b5
      have k0 : ∀ j, s.2 j = v → setMark s.2 n v j = v := by
        intro j h
        by_cases e : j = n
        · rw [e]; exact setMark_self ..
        · rw [setMark_of_ne _ v e]; exact h
      obtain ⟨s', e', w', i'⟩ := key (t.graph.node n).iter (b', setMark s.2 n v) hsucc i0.low
        (hclean.next hinj i0 k0 (fun j h h' => by rw [hmem j h h']; exact hn))
        (by have := unseen_setMark (reach_low hg hn hg.1) hm; dsimp only; omega)
      refine ⟨s', ?_, w'.node, i0.seq hinj i' k0 w'.keeps fun j hj hj' => ?_⟩
      · rw [importNode, if_neg hm, hi]
        dsimp only
        rw [eb]
        exact e'
      · obtain ⟨r, hr, h⟩ := w'.node.reached j hj hj'
        rw [List.mem_singleton.1 hr] at h
        exact hn.trans h

/-- The mark that the conversion uses is not the mark that the nodes have. -/
theorem next_ne (m V : Nat) : m ≠ if m = V then (V + 1) % 65536 else V := by
  split <;> omega

/-- **C87 (conversion to the basic format).**  A transducer whose nodes in reach all have the same mark, and not the mark that its next
walk uses if it was not numbered before, converts to a basic transducer with the same states and transitions and the same alphabet;
and its nodes in reach all have the same mark then.  This holds whatever conversions were made before, of this transducer or of others. -/
theorem C87_import {t : Shared} {m V : Nat} {sym : Nat → Sym} (hc : t.graph.Closed) (hn : t.Numbered) (hu : t.Uniform m)
    (hr : t.order = none → t.NextFree) (h1 : OneSymbol t.codes) (hsym : t.Symbolic sym) :
    ∃ b W t', t.toBasic V = .ok (b, W, t') ∧ (∃ φ, IsBasic t.graph sym b φ) ∧
      (∀ x, x ∈ b.alphabet ↔ x = Hfst.Basic.epsilon ∨ x = Hfst.Basic.unknown ∨ x = Hfst.Basic.identity ∨ ∃ c, c ≠ 0 ∧ (c, x) ∈ t.codes) ∧
      t'.graph = t.graph ∧ t'.codes = t.codes ∧ t'.Numbered ∧ t'.order ≠ none ∧ t'.Uniform W ∧ (W = V ∨ W = (V + 1) % 65536) ∧
      (t'.vmark = t.vmark ∨ t'.vmark = t.incr.vmark) := by
  obtain ⟨ns, t1, e1, nd, ⟨l0, hl0⟩, mem, g1, c1, o1, mk⟩ := number_ok hc hn hu hr
  obtain ⟨m1, hm1⟩ : ∃ m1, t1.Uniform m1 := by
    rcases mk with h | h
    · exact ⟨_, h.2⟩
    · exact ⟨_, h.2⟩
  have hu1 : ∀ n, t.graph.Reach 0 n → t1.mark n = m1 := fun n h => hm1 n (by rw [g1]; exact h)
  let v := if t1.mark 0 = V then (V + 1) % 65536 else V
  have hv : ∀ n, t.graph.Reach 0 n → t1.mark n ≠ v := by
    intro n h
    rw [hu1 n h, ← hu1 0 .refl]
    exact next_ne _ _
  let φ := fun n => ns.idxOf n
  have hinj : ∀ n p, t.graph.Reach 0 n → t.graph.Reach 0 p → φ n = φ p → n = p :=
    fun n p h h' e => (List.idxOf_inj ((mem n).2 h)).1 e
  have hidx : ∀ n, t.graph.Reach 0 n → indexOf ns n = some (φ n) ∧ φ n < ns.length := by
    intro n h
    have := (mem n).2 h
    exact ⟨by unfold indexOf; rw [if_pos this], List.idxOf_lt_length_of_mem this⟩
  have hpos : 0 < ns.length := by rw [hl0]; simp
  have i_arcs : ∀ i, Hfst.Basic.Graph.init.arcs i = [] := by
    intro i
    rcases i with _ | i <;> rfl
  obtain ⟨s, es, ws, is⟩ := importNode_ok hc (index := indexOf ns) (φ := φ) (sym := sym) (N := ns.length) v h1 hsym hinj hidx
    (t.graph.size + 2) 0 (Hfst.Basic.Graph.init, t1.mark) .refl hpos (fun j _ _ => ⟨i_arcs _, rfl⟩)
    (by have := unseen_size t.graph.size v t1.mark; dsimp only; omega)
  have all : ∀ n, t.graph.Reach 0 n → s.2 n = v := fun n h => ws.all hv h
  have onto : ∀ i, i < ns.length → ∃ n, t.graph.Reach 0 n ∧ φ n = i :=
    fun i hi => ⟨ns[i], (mem _).1 (List.getElem_mem hi), nd.idxOf_getElem i hi⟩
  refine ⟨s.1.addSymbols ((t.codes.filter fun e => e.1 ≠ 0).map (fun e => e.2)), v, { t1 with mark := s.2 }, ?_,
    ⟨φ, by show ns.idxOf 0 = 0; rw [hl0]; simp, fun n h => (is.new n (all n h) (hv n h)).1, hinj,
      fun i hi => onto i (Nat.lt_of_lt_of_le hi is.low), fun n h => ?_, fun n h => (is.new n (all n h) (hv n h)).2.2, ?_⟩,
    fun x => ?_, g1, c1, ?_, ?_, ?_, ?_, ?_⟩
  · unfold Shared.toBasic
    rw [e1]
    show (importNode (indexOf ns) t.codes t.graph v (t.graph.size + 2) 0 (Hfst.Basic.Graph.init, t1.mark)).bind _ = _
    rw [es]
    rfl
  · have h2 := (is.new n (all n h) (hv n h)).2.1
    show (s.1.arcs (φ n)).Perm _
    rw [h2]
    exact (iter_perm _).map _
  · intro i w hw
    by_cases hi : i < s.1.states.length
    · exact hi
    · exfalso
      have hs : s.1.final i = some w := hw
      by_cases hex : ∃ n, t.graph.Reach 0 n ∧ φ n = i
      · obtain ⟨n, h, rfl⟩ := hex
        exact hi (is.new n (all n h) (hv n h)).1
      · have := (is.same i (fun j hj hj' e => hex ⟨j, by
          obtain ⟨r, hr', h⟩ := ws.reached j hj hj'
          rw [List.mem_singleton.1 hr'] at h; exact h, e⟩)).2
        rw [this] at hs
        cases hs
  · show x ∈ List.foldl Hfst.Basic.setInsert s.1.alphabet _ ↔ _
    rw [Hfst.Basic.mem_foldl_setInsert, is.alphabet, List.mem_map]
    have : x ∈ Hfst.Basic.Graph.init.alphabet ↔ x = Hfst.Basic.epsilon ∨ x = Hfst.Basic.unknown ∨ x = Hfst.Basic.identity := by
      show x ∈ [Hfst.Basic.epsilon, Hfst.Basic.unknown, Hfst.Basic.identity] ↔ _
      simp
    rw [this]
    constructor
    · rintro (⟨e, he, rfl⟩ | h | h | h)
      · rw [List.mem_filter] at he
        exact .inr (.inr (.inr ⟨e.1, by simpa using he.2, he.1⟩))
      · exact .inl h
      · exact .inr (.inl h)
      · exact .inr (.inr (.inl h))
    · rintro (h | h | h | ⟨c, h, h'⟩)
      · exact .inr (.inl h)
      · exact .inr (.inr (.inl h))
      · exact .inr (.inr (.inr h))
      · exact .inl ⟨(c, x), List.mem_filter.2 ⟨h', by simpa using h⟩, rfl⟩
  · intro ns' h
    have h' : t1.order = some ns' := h
    rw [o1] at h'
    cases h'
    refine ⟨nd, ⟨l0, hl0⟩, fun n => ?_⟩
    show n ∈ ns ↔ t1.graph.Reach 0 n
    rw [g1]; exact mem n
  · show t1.order ≠ none
    rw [o1]; simp
  · intro n h
    exact all n (by rw [← g1]; exact h)
  · show v = V ∨ v = _
    simp only [v]; split
    · exact .inr rfl
    · exact .inl rfl
  · rcases mk with h | h
    · exact .inl h.1
    · exact .inr h.1


/-! ## Cycles -/

/-- Each node of the list leads only to nodes after it. -/
inductive Layered (g : Graph) : List Nat → Prop
  | nil : Layered g []
  | cons {n : Nat} {D : List Nat} : n ∉ D → (∀ a ∈ (g.node n).arcs, a.2 ∈ D) → Layered g D → Layered g (n :: D)

theorem Layered.closed {g : Graph} {D : List Nat} (h : Layered g D) : ∀ n ∈ D, ∀ p, g.Reach n p → p ∈ D := by
  have step : ∀ n ∈ D, ∀ a ∈ (g.node n).arcs, a.2 ∈ D := by
    induction h with
    | nil => intro n h; cases h
    | cons _ h2 _ ih =>
      intro n hn a ha
      rcases List.mem_cons.1 hn with rfl | hn
      · exact List.mem_cons_of_mem _ (h2 a ha)
      · exact List.mem_cons_of_mem _ (ih n hn a ha)
  intro n hn p hp
  induction hp with
  | refl => exact hn
  | @step n m p l hs _ ih => exact ih (step n hn (l, m) hs)

theorem Layered.acyclic {g : Graph} {D : List Nat} (h : Layered g D) :
    ∀ n ∈ D, ∀ l m, g.Step n l m → ¬ g.Reach m n := by
  induction h with
  | nil => intro n h; cases h
  | @cons x D h1 h2 h3 ih =>
    intro n hn l m hs hr
    by_cases hD : n ∈ D
    · exact ih n hD l m hs hr
    · rcases List.mem_cons.1 hn with rfl | hn
      · exact h1 (h3.closed m (h2 (l, m) hs) _ hr)
      · exact hD hn

/-- Between the calls: the marked nodes are those on the way here and those done with. -/
structure Searching (g : Graph) (v : Nat) (P D : List Nat) (m : Nat → Nat) : Prop where
  layered : Layered g D
  apart : ∀ j ∈ P, j ∉ D
  marks : ∀ j, g.Reach 0 j → (m j = v ↔ j ∈ P ∨ j ∈ D)

theorem cyclicNode_ok {g : Graph} (hg : g.Closed) (v : Nat) (f : Nat) :
    ∀ P n m D, g.Reach 0 n → (∀ p ∈ P, g.Reach p n) → n ∉ P → Searching g v P D m → unseen g.size v m < f →
      ∃ r m', cyclicNode g v f P n m = some (r, m') ∧ (∀ j, m j = v → m' j = v) ∧ (r = true → g.Cyclic) ∧
        (r = false → ∃ D', Searching g v P D' m' ∧ n ∈ D' ∧ ∀ j ∈ D, j ∈ D') := by
  induction f with
  | zero => exact fun _ _ _ _ _ _ _ _ h => absurd h (Nat.not_lt_zero _)
  | succ f ih =>
    intro P n m D hn hP hnP hS hw
    by_cases hm : m n = v
    · refine ⟨false, m, by rw [cyclicNode, if_pos hm], fun _ h => h, (fun h => by cases h), fun _ => ⟨D, hS, ?_, fun _ h => h⟩⟩
      exact ((hS.marks n hn).1 hm).resolve_left hnP
    · have hnD : n ∉ D := fun h => hm ((hS.marks n hn).2 (.inr h))
      have key : ∀ (L : List (Label × Nat)) m D, (∀ a ∈ L, a ∈ (g.node n).arcs) → Searching g v (n :: P) D m → unseen g.size v m < f →
          ∃ r m', cyclicArcs (cyclicNode g v f (n :: P)) (n :: P) L m = some (r, m') ∧ (∀ j, m j = v → m' j = v) ∧
            (r = true → g.Cyclic) ∧
            (r = false → ∃ D', Searching g v (n :: P) D' m' ∧ (∀ a ∈ L, a.2 ∈ D') ∧ ∀ j ∈ D, j ∈ D') := by
        intro L
        induction L with
        | nil =>
          exact fun m D _ hS _ => ⟨false, m, rfl, fun _ h => h, (fun h => by cases h),
            fun _ => ⟨D, hS, (fun a h => by cases h), fun _ h => h⟩⟩
        | cons a L ihL =>
          intro m D hL hS hu
          have ha : g.Step n a.1 a.2 := hL a (List.mem_cons_self ..)
          have hPn : ∀ p ∈ n :: P, g.Reach p n := by
            intro p hp
            rcases List.mem_cons.1 hp with rfl | hp
            · exact .refl
            · exact hP p hp
          by_cases hp : a.2 ∈ n :: P
          · refine ⟨true, m, by rw [cyclicArcs, if_pos hp], fun _ h => h, fun _ => ⟨n, a.1, a.2, hn, ha, hPn _ hp⟩, fun h => by cases h⟩
          · obtain ⟨r, m1, e1, k1, t1, f1⟩ := ih (n :: P) a.2 m D (reach_step hn ha) (fun p hp => reach_step (hPn p hp) ha) hp hS hu
            cases r with
            | true =>
              refine ⟨true, m1, by rw [cyclicArcs, if_neg hp, e1]; rfl, k1, fun _ => t1 rfl, fun h => by cases h⟩
            | false =>
              obtain ⟨D1, s1, in1, sub1⟩ := f1 rfl
              obtain ⟨r, m2, e2, k2, t2, f2⟩ := ihL m1 D1 (fun c hc => hL c (List.mem_cons_of_mem _ hc)) s1
                (Nat.lt_of_le_of_lt (unseen_le k1) hu)
              refine ⟨r, m2, by rw [cyclicArcs, if_neg hp, e1]; exact e2, fun j h => k2 j (k1 j h), t2, fun h => ?_⟩
              obtain ⟨D2, s2, in2, sub2⟩ := f2 h
              refine ⟨D2, s2, fun c hc => ?_, fun j h => sub2 j (sub1 j h)⟩
              rcases List.mem_cons.1 hc with rfl | hc
              · exact sub2 _ in1
              · exact in2 c hc
      have k0 : ∀ j, m j = v → setMark m n v j = v := by
        intro j h
        by_cases e : j = n
        · rw [e]; exact setMark_self ..
        · rw [setMark_of_ne _ v e]; exact h
      have s0 : Searching g v (n :: P) D (setMark m n v) := by
        refine ⟨hS.layered, fun j hj => ?_, fun j hj => ?_⟩
        · rcases List.mem_cons.1 hj with rfl | hj
          · exact hnD
          · exact hS.apart j hj
        · by_cases e : j = n
          · subst e
            exact ⟨fun _ => .inl (List.mem_cons_self ..), fun _ => setMark_self ..⟩
          · rw [setMark_of_ne _ v e, hS.marks j hj, List.mem_cons]
            constructor
            · rintro (h | h)
              · exact .inl (.inr h)
              · exact .inr h
            · rintro ((h | h) | h)
              · exact absurd h e
              · exact .inl h
              · exact .inr h
      obtain ⟨r, m', e', k', t', f'⟩ := key (g.node n).iter (setMark m n v) D (fun a ha => (iter_perm _).mem_iff.1 ha) s0
        (by have := unseen_setMark (reach_low hg hn hg.1) hm; omega)
      refine ⟨r, m', by rw [cyclicNode, if_neg hm]; exact e', fun j h => k' j (k0 j h), t', fun h => ?_⟩
      obtain ⟨D', s', in', sub'⟩ := f' h
      refine ⟨n :: D', ⟨.cons (s'.apart n (List.mem_cons_self ..)) (fun a ha => in' a ((iter_perm _).mem_iff.2 ha)) s'.layered,
        fun j hj hj' => ?_, fun j hj => ?_⟩, List.mem_cons_self .., fun j h => List.mem_cons_of_mem _ (sub' j h)⟩
      · rcases List.mem_cons.1 hj' with rfl | hj'
        · exact hnP hj
        · exact s'.apart j (List.mem_cons_of_mem _ hj) hj'
      · rw [s'.marks j hj, List.mem_cons, List.mem_cons]
        constructor
        · rintro ((h | h) | h)
          · exact .inr (.inl h)
          · exact .inl h
          · exact .inr (.inr h)
        · rintro (h | h | h)
          · exact .inl (.inr h)
          · exact .inl (.inl h)
          · exact .inr h

/-- **C87 (cycles).**  If no node in reach has the mark that the next walk uses, a transducer is said to be cyclic if and only if there
is a way from a node in reach back to itself.  If there is none, all nodes in reach have the same mark then. -/
theorem C87_cyclic {t : Shared} (hc : t.graph.Closed) (hr : t.NextFree) :
    ∃ r t', t.isCyclic = .ok (r, t') ∧ (r = true ↔ t.graph.Cyclic) ∧ t'.graph = t.graph ∧ t'.codes = t.codes ∧ t'.order = t.order ∧
      t'.vmark = t.incr.vmark ∧ (r = false → t'.Uniform t.incr.vmark) := by
  obtain ⟨r, m', e, _, h1, h2⟩ := cyclicNode_ok hc t.incr.vmark (t.graph.size + 2) [] 0 t.incr.mark [] .refl (fun _ h => by cases h)
    (by simp) ⟨.nil, (fun _ h => by cases h), fun j hj => ⟨fun h => absurd h (hr.fresh hj), fun h => by simp at h⟩⟩
    (by have := unseen_size t.graph.size t.incr.vmark t.incr.mark; omega)
  refine ⟨r, { t.incr with mark := m' }, ?_, ⟨h1, fun hcy => ?_⟩, graph_incr t, codes_incr t, order_incr t, rfl, fun h => ?_⟩
  · unfold Shared.isCyclic
    rw [graph_incr, e]
  · cases r with
    | true => rfl
    | false =>
      obtain ⟨D, s, h0, _⟩ := h2 rfl
      obtain ⟨n, l, m, hn, hs, hm⟩ := hcy
      exact absurd hm (s.layered.acyclic n (s.layered.closed 0 h0 n hn) l m hs)
  · obtain ⟨D, s, h0, _⟩ := h2 h
    intro n hn
    have hn' : t.graph.Reach 0 n := by
      have h5 : ({ t.incr with mark := m' } : Shared).graph = t.graph := graph_incr t
      rw [h5] at hn; exact hn
    exact (s.marks n hn').2 (.inr (s.layered.closed 0 h0 n hn'))

/-! ## Histories -/

/-- What holds after `k` calls. -/
structure After (t0 : Shared) (k : Nat) (s : Nat × Shared) : Prop where
  graph : s.2.graph = t0.graph
  codes : s.2.codes = t0.codes
  numbered : s.2.Numbered
  shared : 10000 ≤ s.1 ∧ s.1 ≤ 10000 + k
  own : s.2.vmark ≤ k
  uniform : ∃ m, s.2.Uniform m ∧ (m ≤ s.2.vmark ∨ 10000 ≤ m)

theorem After.free {t0 : Shared} {k : Nat} {s : Nat × Shared} (h : After t0 k s) (hk : k < 9999) : s.2.NextFree := by
  obtain ⟨m, hm, hb⟩ := h.uniform
  refine .inr fun n hn => ?_
  have := h.own
  rw [hm n hn]; omega

theorem incr_vmark {t : Shared} (h : t.vmark < 9999) : t.incr.vmark = t.vmark + 1 := by
  unfold Shared.incr; rw [if_neg (by omega)]

theorem After.call {t0 : Shared} {k : Nat} {s : Nat × Shared} (h : After t0 k s) (hk : k < 9999) (hc : t0.graph.Closed)
    (h1 : OneSymbol t0.codes) {sym : Nat → Sym} (hsym : t0.Symbolic sym) (c : Call) (hcy : c = .cyclic → ¬ t0.graph.Cyclic) :
    ∃ s', Shared.call s c = .ok s' ∧ After t0 (k + 1) s' := by
  obtain ⟨V, t⟩ := s
  have hfree : t.NextFree := h.free hk
  obtain ⟨hg, hcd, hnum, hsh, hown, m, hm, hb⟩ := h
  dsimp only at hg hcd hnum hsh hown hm hb
  have hinc := incr_vmark (t := t) (by omega)
  have hc' : t.graph.Closed := by rw [hg]; exact hc
  cases c with
  | count =>
    obtain ⟨ns, t', e, a1, a2, a3, a4, a5, a6, a7⟩ := number_ok hc' hnum hm (fun _ => hfree)
    refine ⟨(V, t'), by simp only [Shared.call, e]; rfl, a4.trans hg, a5.trans hcd, ?_, ⟨hsh.1, by have := hsh.2; dsimp only; omega⟩, ?_, ?_⟩
    · intro ns' h'
      dsimp only at h' ⊢
      rw [a6] at h'
      cases h'
      rw [a4]; exact ⟨a1, a2, a3⟩
    · dsimp only; rcases a7 with h | h <;> omega
    · rcases a7 with h | h
      · exact ⟨m, h.2, by dsimp only; omega⟩
      · exact ⟨_, h.2, by dsimp only; omega⟩
  | whole =>
    obtain ⟨ns, t', e, a1, a2, a3, a4, a5, a6, a7, a8⟩ := sharedWalk_ok hc' hfree
    refine ⟨(V, t'), by simp only [Shared.call, e]; rfl, a4.trans hg, a5.trans hcd, ?_, ⟨hsh.1, by have := hsh.2; dsimp only; omega⟩, ?_,
      ⟨_, a8, by dsimp only; omega⟩⟩
    · intro ns' h'
      dsimp only at h' ⊢
      rw [a6] at h'
      rw [a4]; exact hnum ns' h'
    · dsimp only; omega
  | basic =>
    obtain ⟨b, W, t', e, _, _, a4, a5, a6, _, a7, a8, a9⟩ := C87_import (V := V) hc' hnum hm (fun _ => hfree)
      (by rw [hcd]; exact h1) (sym := sym) (by unfold Shared.Symbolic; rw [hg, hcd]; exact hsym)
    have hW : 10000 ≤ W ∧ W ≤ 10000 + (k + 1) := by
      rcases a8 with h | h
      · omega
      · rw [Nat.mod_eq_of_lt (by omega)] at h; omega
    refine ⟨(W, t'), by simp only [Shared.call, e]; rfl, a4.trans hg, a5.trans hcd, a6, hW, ?_, ⟨W, a7, .inr hW.1⟩⟩
    dsimp only; rcases a9 with h | h <;> omega
  | cyclic =>
    obtain ⟨r, t', e, a1, a4, a5, a6, a7, a8⟩ := C87_cyclic hc' hfree
    have hr : r = false := by
      cases r with
      | false => rfl
      | true =>
        have := a1.1 rfl
        rw [hg] at this
        exact absurd this (hcy rfl)
    refine ⟨(V, t'), by simp only [Shared.call, e]; rfl, a4.trans hg, a5.trans hcd, ?_, ⟨hsh.1, by have := hsh.2; dsimp only; omega⟩, ?_,
      ⟨_, a8 hr, by dsimp only; omega⟩⟩
    · intro ns' h'
      dsimp only at h' ⊢
      rw [a6] at h'
      rw [a4]; exact hnum ns' h'
    · dsimp only; omega
  | other again =>
    refine ⟨_, rfl, hg, hcd, hnum, ?_, by dsimp only; omega, m, hm, hb⟩
    dsimp only
    split
    · rw [Nat.mod_eq_of_lt (by omega)]; omega
    · omega

/-- **C87 (histories).**  Take a new transducer.  However its states are counted, it is copied or stored, it is converted to the basic
format, other transducers are converted, and, unless it is cyclic, asked if it is cyclic: with fewer than 9999 such calls the next
conversion to the basic format gives the same transducer, and the next question if it is cyclic is answered right. -/
theorem C87_history_partial {t : Shared} {sym : Nat → Sym} (hc : t.graph.Closed) (hu : t.Uniform 0) (hv : t.vmark = 0) (ho : t.order = none)
    (h1 : OneSymbol t.codes) (hsym : t.Symbolic sym) (cs : List Call) (hk : cs.length < 9999)
    (hcy : Call.cyclic ∈ cs → ¬ t.graph.Cyclic) :
    ∃ V' t', Shared.calls cs (10000, t) = .ok (V', t') ∧
      (∃ b W t2, t'.toBasic V' = .ok (b, W, t2) ∧ ∃ φ, IsBasic t.graph sym b φ) ∧
      ∃ r t2, t'.isCyclic = .ok (r, t2) ∧ (r = true ↔ t.graph.Cyclic) := by
  have key : ∀ (cs : List Call) k s, After t k s → k + cs.length < 9999 → (Call.cyclic ∈ cs → ¬ t.graph.Cyclic) →
      ∃ s', Shared.calls cs s = .ok s' ∧ After t (k + cs.length) s' := by
    intro cs
    induction cs with
    | nil => exact fun k s h _ _ => ⟨s, rfl, h⟩
    | cons c cs ih =>
      intro k s h hk hcy
      rw [List.length_cons] at hk
      obtain ⟨s1, e1, a1⟩ := h.call (by omega) hc h1 hsym c (fun e => hcy (e ▸ List.mem_cons_self ..))
      obtain ⟨s2, e2, a2⟩ := ih (k + 1) s1 a1 (by omega) (fun h => hcy (List.mem_cons_of_mem _ h))
      refine ⟨s2, ?_, ?_⟩
      · unfold Shared.calls at e2 ⊢
        rw [steps, e1]; exact e2
      · rw [List.length_cons, show k + (cs.length + 1) = k + 1 + cs.length from by omega]; exact a2
  have start : After t 0 (10000, t) := ⟨rfl, rfl, (fun ns h => by rw [ho] at h; cases h), ⟨Nat.le_refl _, Nat.le_refl _⟩,
    by dsimp only; omega, 0, hu, .inl (Nat.zero_le _)⟩
  obtain ⟨⟨V', t'⟩, e, a⟩ := key cs 0 _ start (by omega) hcy
  rw [Nat.zero_add] at a
  have hfree := a.free hk
  obtain ⟨hg, hcd, hnum, hsh, hown, m, hm, hb⟩ := a
  dsimp only at hg hcd hnum hsh hown hm hb hfree
  refine ⟨V', t', e, ?_, ?_⟩
  · obtain ⟨b, W, t2, e2, h2, _⟩ := C87_import (V := V') (by rw [hg]; exact hc) hnum hm (fun _ => hfree)
      (by rw [hcd]; exact h1) (sym := sym) (by unfold Shared.Symbolic; rw [hg, hcd]; exact hsym)
    rw [hg] at h2
    exact ⟨b, W, t2, e2, h2⟩
  · obtain ⟨r, t2, e2, h2, _⟩ := C87_cyclic (by rw [hg]; exact hc) hfree
    rw [hg] at h2
    exact ⟨r, t2, e2, h2⟩


/-! ## From the basic format -/

/-- The table of symbols while it is made. -/
def TableOf (number : Sym → Nat) (codes : List (Nat × Sym)) : Prop :=
  ∀ c x, (c, x) ∈ codes → c = 0 ∧ x = sfstEpsilon ∨ c = number x ∧ x ≠ sfstEpsilon ∧ x ≠ Hfst.Basic.epsilon

theorem exportCodes_ok {number : Sym → Nat} (hn : Numbering number) (xs : List Sym) :
    ∀ codes, TableOf number codes → (1, Hfst.Basic.unknown) ∈ codes → (2, Hfst.Basic.identity) ∈ codes →
      sfstEpsilon ∉ xs → (∀ x ∈ xs, number x < 65536) →
      ∃ codes', exportCodes number xs codes = .ok codes' ∧ TableOf number codes' ∧
        ∀ c x, (c, x) ∈ codes' ↔ (c, x) ∈ codes ∨ c = number x ∧ x ∈ xs ∧ x ≠ Hfst.Basic.epsilon := by
  induction xs with
  | nil => exact fun codes h _ _ _ _ => ⟨codes, rfl, h, fun c x => by simp⟩
  | cons y xs ih =>
    intro codes ht hu hi he hl
    have he' : sfstEpsilon ∉ xs := fun h => he (List.mem_cons_of_mem _ h)
    have hl' : ∀ x ∈ xs, number x < 65536 := fun x h => hl x (List.mem_cons_of_mem _ h)
    by_cases hsp : y = Hfst.Basic.epsilon ∨ y = Hfst.Basic.unknown ∨ y = Hfst.Basic.identity
    · obtain ⟨codes', e1, e2, e3⟩ := ih codes ht hu hi he' hl'
      refine ⟨codes', by rw [exportCodes, if_pos hsp]; exact e1, e2, fun c x => ?_⟩
      rw [e3, List.mem_cons]
      constructor
      · rintro (h | ⟨h, h', h''⟩)
        · exact .inl h
        · exact .inr ⟨h, .inr h', h''⟩
      · rintro (h | ⟨h, rfl | h', h''⟩)
        · exact .inl h
        · rcases hsp with e | e | e
          · exact absurd e h''
          · subst e; rw [hn.unk] at h; subst h; exact .inl hu
          · subst e; rw [hn.idn] at h; subst h; exact .inl hi
        · exact .inr ⟨h, h', h''⟩
    · have hy0 : y ≠ Hfst.Basic.epsilon := fun h => hsp (.inl h)
      have hys : y ≠ sfstEpsilon := fun h => he (h ▸ List.mem_cons_self ..)
      have hmod : number y % 65536 = number y := Nat.mod_eq_of_lt (hl y (List.mem_cons_self ..))
      have hadd : ∃ codes1, addCode codes y (number y) = .ok codes1 ∧ TableOf number codes1 ∧
          ∀ c x, (c, x) ∈ codes1 ↔ (c, x) ∈ codes ∨ c = number x ∧ x = y := by
        unfold addCode
        rw [hmod]
        cases hf : codes.find? (fun e => e.2 = y) with
        | some e =>
          have hm := List.mem_of_find?_eq_some hf
          have hp : e.2 = y := by simpa using List.find?_some hf
          have h1 : e.1 = number y := by
            rcases ht e.1 e.2 hm with h | h
            · rw [hp] at h; exact absurd h.2 hys
            · rw [hp] at h; exact h.1
          refine ⟨codes, by dsimp only; rw [if_pos h1], ht, fun c x => ⟨.inl, ?_⟩⟩
          rintro (h | ⟨rfl, rfl⟩)
          · exact h
          · rw [← h1, ← hp]; exact hm
        | none =>
          have hnone : ∀ e ∈ codes, e.2 ≠ y := by
            intro e h; simpa using List.find?_eq_none.1 hf e h
          cases hf2 : codes.find? (fun e => e.1 = number y) with
          | some e =>
            exfalso
            have hm := List.mem_of_find?_eq_some hf2
            have hp : e.1 = number y := by simpa using List.find?_some hf2
            rcases ht e.1 e.2 hm with h | h
            · rw [hp] at h
              exact hy0 (hn.inj _ _ (h.1.trans hn.eps.symm))
            · rw [hp] at h
              exact hnone e hm (hn.inj _ _ h.1.symm)
          | none =>
            refine ⟨codes ++ [(number y, y)], rfl, ?_, fun c x => ?_⟩
            · intro c x h
              rcases List.mem_append.1 h with h | h
              · exact ht c x h
              · have := List.mem_singleton.1 h
                cases this
                exact .inr ⟨rfl, hys, hy0⟩
            · rw [List.mem_append, List.mem_singleton, Prod.mk.injEq]
              constructor
              · rintro (h | ⟨h, rfl⟩)
                · exact .inl h
                · exact .inr ⟨h, rfl⟩
              · rintro (h | ⟨h, rfl⟩)
                · exact .inl h
                · exact .inr ⟨h, rfl⟩
      obtain ⟨codes1, a1, a2, a3⟩ := hadd
      obtain ⟨codes', e1, e2, e3⟩ := ih codes1 a2 ((a3 _ _).2 (.inl hu)) ((a3 _ _).2 (.inl hi)) he' hl'
      refine ⟨codes', by rw [exportCodes, if_neg hsp, a1]; exact e1, e2, fun c x => ?_⟩
      rw [e3, a3, List.mem_cons]
      constructor
      · rintro ((h | ⟨h, rfl⟩) | ⟨h, h', h''⟩)
        · exact .inl h
        · exact .inr ⟨h, .inl rfl, hy0⟩
        · exact .inr ⟨h, .inr h', h''⟩
      · rintro (h | ⟨h, rfl | h', h''⟩)
        · exact .inl (.inl h)
        · exact .inl (.inr ⟨h, rfl⟩)
        · exact .inr ⟨h, h', h''⟩

theorem special_ne : Hfst.Basic.unknown ≠ sfstEpsilon ∧ Hfst.Basic.identity ≠ sfstEpsilon ∧ Hfst.Basic.unknown ≠ Hfst.Basic.epsilon ∧
    Hfst.Basic.identity ≠ Hfst.Basic.epsilon ∧ Hfst.Basic.epsilon ≠ sfstEpsilon := by decide +kernel

/-- **C87 (conversion from the basic format).**  A basic transducer whose symbols on transitions are in its alphabet, without a symbol
`<>`, with symbol numbers below 65536, converts: the same states, transitions with the numbers of the symbols, the same final states,
and the table holds the symbols of the alphabet with their numbers.  Weights are lost. -/
theorem C87_export {number : Sym → Nat} (hn : Numbering number) {b : Hfst.Basic.Graph} (hw : Hfst.Basic.WF b) (ha : Hfst.Basic.AlphaOK b)
    (he : sfstEpsilon ∉ b.alphabet) (hl : ∀ x ∈ b.alphabet, number x < 65536) :
    ∃ t, fromBasic number b = .ok t ∧ t.graph.Closed ∧ t.graph.size = b.states.length ∧
      (∀ s, ((t.graph.node s).arcs).Perm ((b.arcs s).map (fun a => (⟨number a.inp, number a.out⟩, a.target)))) ∧
      (∀ s, (t.graph.node s).final = (b.final s).isSome) ∧
      (∀ c x, (c, x) ∈ t.codes ↔ c = 0 ∧ x = sfstEpsilon ∨ c = number x ∧ x ∈ b.alphabet ∧ x ≠ Hfst.Basic.epsilon) ∧
      t.Uniform 0 ∧ t.vmark = 0 ∧ t.order = none := by
  obtain ⟨n1, n2, n3, n4, n5⟩ := special_ne
  obtain ⟨codes, e1, e2, e3⟩ := exportCodes_ok hn b.alphabet [(0, sfstEpsilon), (1, Hfst.Basic.unknown), (2, Hfst.Basic.identity)]
    (by
      intro c x h
      simp only [List.mem_cons, Prod.mk.injEq, List.not_mem_nil, or_false] at h
      rcases h with ⟨rfl, rfl⟩ | ⟨rfl, rfl⟩ | ⟨rfl, rfl⟩
      · exact .inl ⟨rfl, rfl⟩
      · exact .inr ⟨hn.unk.symm, n1, n3⟩
      · exact .inr ⟨hn.idn.symm, n2, n4⟩)
    (by simp) (by simp) he hl
  have hcodes : ∀ c x, (c, x) ∈ codes ↔ c = 0 ∧ x = sfstEpsilon ∨ c = number x ∧ x ∈ b.alphabet ∧ x ≠ Hfst.Basic.epsilon := by
    intro c x
    rw [e3]
    simp only [List.mem_cons, Prod.mk.injEq, List.not_mem_nil, or_false]
    constructor
    · rintro ((h | ⟨rfl, rfl⟩ | ⟨rfl, rfl⟩) | h)
      · exact .inl h
      · exact .inr ⟨hn.unk.symm, ha.unk, n3⟩
      · exact .inr ⟨hn.idn.symm, ha.idn, n4⟩
      · exact .inr h
    · rintro (h | h)
      · exact .inl (.inl h)
      · exact .inr h
  have hcode : ∀ x ∈ b.alphabet, symbolCode codes x = number x := by
    intro x hx
    unfold symbolCode
    by_cases h0 : x = Hfst.Basic.epsilon
    · rw [if_pos h0, h0, hn.eps]
    · have h1 : x ≠ sfstEpsilon := fun h => he (h ▸ hx)
      rw [if_neg h0, if_neg h1]
      have hm : (number x, x) ∈ codes := (hcodes _ _).2 (.inr ⟨rfl, hx, h0⟩)
      cases hf : codes.find? (fun e => e.2 = x) with
      | none => exact absurd (by simp) (List.find?_eq_none.1 hf _ hm)
      | some e =>
        have hm2 := List.mem_of_find?_eq_some hf
        have hp : e.2 = x := by simpa using List.find?_some hf
        rcases e2 e.1 e.2 hm2 with h | h
        · rw [hp] at h; exact absurd h.2 h1
        · rw [hp] at h; exact h.1
  have hcond : (∀ l ∈ b.states, ∀ a ∈ l, a.target < b.states.length) ∧ ∀ e ∈ b.finals, e.1 < b.states.length := by
    refine ⟨fun l hl' a ha' => ?_, fun e h => ?_⟩
    · obtain ⟨s, hs⟩ := (mem_flatten_states b a).1 (List.mem_flatten.2 ⟨l, hl', ha'⟩)
      exact hw.targets s a hs
    · obtain ⟨w, hw'⟩ := Option.isSome_iff_exists.1 (Hfst.Basic.mapGet_isSome_of_mem (k := e.1) (v := e.2) h)
      exact hw.finals e.1 w hw'
  refine ⟨_, by unfold fromBasic; rw [e1]; show (if _ then _ else _) = _; rw [if_pos hcond], ⟨hw.nonempty, fun n _ a h => ?_⟩, rfl,
    fun s => ?_, fun s => rfl, hcodes, fun _ _ => rfl, rfl, rfl⟩
  · dsimp only at h ⊢
    rw [List.mem_reverse, List.mem_map] at h
    obtain ⟨c, hc, rfl⟩ := h
    exact hw.targets n c hc
  · dsimp only
    refine (List.reverse_perm _).trans ?_
    have : (b.arcs s).map (fun a => ((⟨symbolCode codes a.inp, symbolCode codes a.out⟩ : Label), a.target)) =
        (b.arcs s).map (fun a => (⟨number a.inp, number a.out⟩, a.target)) := by
      apply List.map_congr_left
      intro a h
      rw [hcode _ (ha.arcs s a h).1, hcode _ (ha.arcs s a h).2]
    rw [this]

/-- **C87 (there and back).**  Such a basic transducer converted to the back-end and back has the same states in reach, transitions, final
states and alphabet, without weights, whatever was converted before. -/
theorem C87_roundtrip {number : Sym → Nat} (hn : Numbering number) {b : Hfst.Basic.Graph} (hw : Hfst.Basic.WF b)
    (ha : Hfst.Basic.AlphaOK b) (he : sfstEpsilon ∉ b.alphabet) (hl : ∀ x ∈ b.alphabet, number x < 65536) (V : Nat) :
    ∃ t r W t', fromBasic number b = .ok t ∧ t.toBasic V = .ok (r, W, t') ∧ (∃ φ, SameStates b r φ) ∧
      ∀ x, x ∈ r.alphabet ↔ x ∈ b.alphabet := by
  classical
  obtain ⟨t, e, hc, hsz, harcs, hfin, hcodes, hu, hv, ho⟩ := C87_export hn hw ha he hl
  let sym : Nat → Sym := fun c => if h : ∃ x, number x = c then h.choose else []
  have hsym : ∀ x, sym (number x) = x := by
    intro x
    have h : ∃ y, number y = number x := ⟨x, rfl⟩
    show (if h : ∃ y, number y = number x then h.choose else []) = x
    rw [dif_pos h]
    exact hn.inj _ _ h.choose_spec
  have stands : ∀ x ∈ b.alphabet, Stands t.codes (number x) (sym (number x)) := by
    intro x hx
    unfold Stands
    rw [hsym]
    split
    · next h => exact hn.inj _ _ (h.trans hn.eps.symm)
    · next h => exact (hcodes _ _).2 (.inr ⟨rfl, hx, fun e => h (by rw [e, hn.eps])⟩)
  have one : OneSymbol t.codes := by
    intro c x y hx hy
    rcases (hcodes _ _).1 hx with ⟨h1, h2⟩ | ⟨h1, h2, h3⟩ <;> rcases (hcodes _ _).1 hy with ⟨k1, k2⟩ | ⟨k1, k2, k3⟩
    · rw [h2, k2]
    · exact absurd (hn.inj _ _ (k1.symm.trans (h1.trans hn.eps.symm))) k3
    · exact absurd (hn.inj _ _ (h1.symm.trans (k1.trans hn.eps.symm))) h3
    · exact hn.inj _ _ (h1.symm.trans k1)
  have hs : t.Symbolic sym := by
    intro n _ a h
    obtain ⟨c, hc', rfl⟩ := List.mem_map.1 ((harcs n).mem_iff.1 h)
    exact ⟨stands _ (ha.arcs n c hc').1, stands _ (ha.arcs n c hc').2⟩
  obtain ⟨r, W, t', e2, ⟨φ, hφ⟩, hal, _⟩ := C87_import (V := V) hc (fun ns h => by rw [ho] at h; cases h) hu
    (fun _ => .inr fun n hn' => by rw [hu n hn', hv]; decide) one hs
  have reach : ∀ s u, StateReach b s u ↔ t.graph.Reach s u := by
    intro s u
    constructor
    · intro h
      induction h with
      | refl => exact .refl
      | @step s u a h _ ih =>
        exact .step (l := ⟨number a.inp, number a.out⟩) ((harcs s).mem_iff.2 (List.mem_map.2 ⟨a, h, rfl⟩)) ih
    · intro h
      induction h with
      | refl => exact .refl
      | @step n m p l h _ ih =>
        obtain ⟨a, h1, h2⟩ := List.mem_map.1 ((harcs n).mem_iff.1 h)
        cases h2
        exact .step h1 ih
  refine ⟨t, r, W, t', e, e2, ⟨φ, hφ.root, fun s u h h' => hφ.inj s u ((reach _ _).1 h) ((reach _ _).1 h'),
    fun s h => hφ.low s ((reach _ _).1 h), fun i hi => ?_, fun s h => ?_, fun s h => ?_⟩, fun x => ?_⟩
  · obtain ⟨n, h1, h2⟩ := hφ.onto i hi
    exact ⟨n, (reach _ _).2 h1, h2⟩
  · refine (hφ.arcs s ((reach _ _).1 h)).trans (((harcs s).map _).trans ?_)
    rw [List.map_map]
    refine List.Perm.of_eq (List.map_congr_left fun a _ => ?_)
    simp only [Function.comp_apply, hsym]
  · rw [hφ.final s ((reach _ _).1 h), hfin]
    cases b.final s <;> rfl
  · rw [hal]
    constructor
    · rintro (rfl | rfl | rfl | ⟨c, h1, h2⟩)
      · exact ha.eps
      · exact ha.unk
      · exact ha.idn
      · rcases (hcodes _ _).1 h2 with h | h
        · exact absurd h.1 h1
        · exact h.2.1
    · intro h
      by_cases h0 : x = Hfst.Basic.epsilon
      · exact .inl h0
      · exact .inr (.inr (.inr ⟨number x, fun h1 => h0 (hn.inj _ _ (h1.trans hn.eps.symm)), (hcodes _ _).2 (.inr ⟨rfl, h, h0⟩)⟩))

/-! ## Where it goes wrong -/

/-- **C87 (the symbol `<>`).**  A basic transducer with the symbol `<>` in its alphabet cannot be converted: what is thrown is not even an
exception of the library. -/
theorem C87_refused {number : Sym → Nat} (hn : Numbering number) {b : Hfst.Basic.Graph} (he : sfstEpsilon ∈ b.alphabet)
    (hl : ∀ x ∈ b.alphabet, number x < 65536) : fromBasic number b = .throws := by
  have key : ∀ (xs : List Sym) codes, (0, sfstEpsilon) ∈ codes → (∀ c, (c, sfstEpsilon) ∈ codes → c = 0) → sfstEpsilon ∈ xs →
      (∀ x ∈ xs, number x < 65536) → exportCodes number xs codes = .throws := by
    intro xs
    induction xs with
    | nil => intro _ _ _ h; cases h
    | cons y xs ih =>
      intro codes hin h0 hm hl
      have hl' : ∀ x ∈ xs, number x < 65536 := fun x h => hl x (List.mem_cons_of_mem _ h)
      obtain ⟨n1, n2, n3, n4, n5⟩ := special_ne
      by_cases hsp : y = Hfst.Basic.epsilon ∨ y = Hfst.Basic.unknown ∨ y = Hfst.Basic.identity
      · rw [exportCodes, if_pos hsp]
        refine ih codes hin h0 ?_ hl'
        rcases List.mem_cons.1 hm with h | h
        · exfalso
          rcases hsp with e | e | e
          · exact n5 (e ▸ h.symm)
          · exact n1 (e ▸ h.symm)
          · exact n2 (e ▸ h.symm)
        · exact h
      · rw [exportCodes, if_neg hsp]
        unfold addCode
        rw [Nat.mod_eq_of_lt (hl y (List.mem_cons_self ..))]
        cases hf : codes.find? (fun e => e.2 = y) with
        | some e =>
          have hm2 := List.mem_of_find?_eq_some hf
          have hp : e.2 = y := by simpa using List.find?_some hf
          dsimp only
          by_cases hy : y = sfstEpsilon
          · have : e.1 = 0 := h0 e.1 (by rw [← hy, ← hp]; exact hm2)
            rw [if_neg]
            · rfl
            · rw [this]
              exact fun h => hsp (.inl (hn.inj _ _ (h.symm.trans hn.eps.symm)))
          · split
            · exact ih codes hin h0 ((List.mem_cons.1 hm).resolve_left (fun h => hy h.symm)) hl'
            · rfl
        | none =>
          have hy : y ≠ sfstEpsilon := by
            intro h
            have := List.find?_eq_none.1 hf _ hin
            simp [h] at this
          cases codes.find? (fun e => e.1 = number y) with
          | some e => rfl
          | none =>
            refine ih _ (List.mem_append_left _ hin) (fun c h => ?_) ((List.mem_cons.1 hm).resolve_left (fun h => hy h.symm)) hl'
            rcases List.mem_append.1 h with h | h
            · exact h0 c h
            · exact absurd (Prod.mk.inj (List.mem_singleton.1 h)).2.symm hy
  unfold fromBasic
  rw [key b.alphabet _ (by simp) (fun c h => ?_) he hl]
  · rfl
  · obtain ⟨n1, n2, _⟩ := special_ne
    simp only [List.mem_cons, Prod.mk.injEq, List.not_mem_nil, or_false] at h
    rcases h with h | h | h
    · exact h.1
    · exact absurd h.2.symm n1
    · exact absurd h.2.symm n2

end Hfst.Sfst
