import Mathlib.Data.List.Dedup
import Verif.Model.Summarize
import Verif.Spec.Summarize
import Verif.Lemmas.Graph

/-!
# C100: the numbers of hfst-summarize are those of the transducer
-/
namespace Hfst.Summarize
open Hfst.StdString Hfst.Basic

theorem foldl_done {α β : Type} {f : α → β → α} (P : List β → α → Prop) (h : ∀ d a b, P d a → P (d ++ [b]) (f a b)) :
    ∀ rest d a, P d a → P (d ++ rest) (rest.foldl f a) := by
  intro rest
  induction rest with
  | nil => intro d a hp; simpa using hp
  | cons b rest ih =>
    intro d a hp
    have := ih _ _ (h d a b hp)
    simpa using this

/-- The map says how often each element occurs in the list (maps of tools/src/hfst-summarize.cc:239, 253-254). -/
def Counts {K : Type} [BEq K] (m : List (K × Nat)) (l : List K) : Prop :=
  (m.map (·.1)).Nodup ∧ (∀ e ∈ m, e.2 = l.count e.1) ∧ ∀ k, k ∈ m.map (·.1) ↔ k ∈ l

theorem Counts.get {K : Type} [DecidableEq K] [BEq K] [LawfulBEq K] {m : List (K × Nat)} {l : List K} (h : Counts m l) (k : K) :
    (mapGet m k).getD 0 = l.count k := by
  cases e : mapGet m k with
  | some v => exact h.2.1 _ (mapGet_mem e)
  | none =>
    have : k ∉ l := by
      intro hk
      obtain ⟨x, hx, rfl⟩ := List.mem_map.1 ((h.2.2 k).2 hk)
      simp only [mapGet, Option.map_eq_none_iff, List.find?_eq_none] at e
      exact e x hx (by simp)
    simp [List.count_eq_zero.2 this]

theorem Counts.bump {K : Type} [DecidableEq K] [BEq K] [LawfulBEq K] {m : List (K × Nat)} {l : List K} (h : Counts m l) (k : K) :
    Counts (bump m k) (l ++ [k]) := by
  have hg := h.get k
  refine ⟨?_, ?_, ?_⟩
  · simp only [Summarize.bump, mapPut, List.map_cons, List.nodup_cons]
    refine ⟨?_, (List.Sublist.map _ List.filter_sublist).nodup h.1⟩
    simp
  · intro e he
    simp only [Summarize.bump, mapPut, List.mem_cons, List.mem_filter] at he
    rcases he with rfl | ⟨he, hne⟩
    · simp [hg]
    · have hne' : k ≠ e.1 := fun hh => by simp [hh] at hne
      rw [h.2.1 e he]
      simp [List.count_append, hne']
  · intro x
    have := h.2.2 x
    simp only [Summarize.bump, mapPut, List.map_cons, List.mem_cons, List.mem_append, List.not_mem_nil, or_false, ← this,
      List.mem_map, List.mem_filter]
    constructor
    · rintro (rfl | ⟨e, ⟨he, _⟩, rfl⟩)
      · exact .inr rfl
      · exact .inl ⟨e, he, rfl⟩
    · rintro (⟨e, he, rfl⟩ | rfl)
      · by_cases hk : e.1 = k
        · exact .inl hk
        · exact .inr ⟨e, ⟨he, by simpa using hk⟩, rfl⟩
      · exact .inl rfl

theorem Counts.length {K : Type} [DecidableEq K] [BEq K] [LawfulBEq K] {m : List (K × Nat)} {l : List K} (h : Counts m l) : m.length = l.dedup.length := by
  have : (m.map (·.1)).Perm l.dedup := by
    rw [List.perm_ext_iff_of_nodup h.1 (List.nodup_dedup l)]
    intro a
    rw [h.2.2, List.mem_dedup]
  simpa using this.length_eq

theorem most_spec (n : Nat) (m : List (Sym × Nat)) :
    n ≤ most n m ∧ (∀ e ∈ m, e.2 ≤ most n m) ∧ (most n m = n ∨ ∃ e ∈ m, most n m = e.2) := by
  induction m generalizing n with
  | nil => exact ⟨Nat.le_refl _, by simp, .inl rfl⟩
  | cons e m ih =>
    have hh : most n (e :: m) = most (if e.2 > n then e.2 else n) m := rfl
    rw [hh]
    obtain ⟨h1, h2, h3⟩ := ih (if e.2 > n then e.2 else n)
    have : n ≤ (if e.2 > n then e.2 else n) ∧ e.2 ≤ (if e.2 > n then e.2 else n) := by split <;> omega
    refine ⟨by omega, ?_, ?_⟩
    · intro x hx
      rcases List.mem_cons.1 hx with rfl | hx
      · omega
      · exact h2 x hx
    · rcases h3 with h3 | ⟨x, hx, h3⟩
      · by_cases hc : e.2 > n
        · rw [if_pos hc] at h3 ⊢
          exact .inr ⟨e, List.mem_cons_self, h3⟩
        · rw [if_neg hc] at h3 ⊢
          exact .inl h3
      · exact .inr ⟨x, List.mem_cons_of_mem _ hx, h3⟩

/-- What is known of the summary after the transitions `L` (invariant for tools/src/hfst-summarize.cc:256-322). -/
structure AInv (L : List (Nat × Arc)) (m : Summary) : Prop where
  arcs : m.arcs = L.length
  io : m.ioEpsilons = L.countP fun x => decide (x.2.inp = epsilon) && decide (x.2.out = epsilon)
  inE : m.inputEpsilons = L.countP fun x => decide (x.2.inp = epsilon)
  outE : m.outputEpsilons = L.countP fun x => decide (x.2.out = epsilon)
  found : ∀ y, y ∈ m.found ↔ ∃ x ∈ L, y = x.2.inp ∨ y = x.2.out
  acceptor : m.acceptor = true ↔ ∀ x ∈ L, x.2.inp = x.2.out
  cyclic : m.cyclic = true ↔ ∃ x ∈ L, x.1 = x.2.target
  initial : m.cyclicAtInitial = true ↔ ∃ x ∈ L, x.1 = 0 ∧ x.2.target = 0
  pairs : Counts m.pairs (L.map fun x => x.2.label)

theorem AInv.step {L : List (Nat × Arc)} {p : Summary × Here} (h : AInv L p.1) (s : Nat) (a : Arc) :
    AInv (L ++ [(s, a)]) (arcStep s p a).1 where
  arcs := by simp [arcStep, h.arcs]
  io := by
    simp only [arcStep, h.io, List.countP_append, List.countP_cons, List.countP_nil]
    split <;> simp
  inE := by
    simp only [arcStep, h.inE, List.countP_append, List.countP_cons, List.countP_nil]
    by_cases h1 : a.inp = epsilon <;> by_cases h2 : a.out = epsilon <;> simp [h1, h2]
  outE := by
    simp only [arcStep, h.outE, List.countP_append, List.countP_cons, List.countP_nil]
    by_cases h1 : a.inp = epsilon <;> by_cases h2 : a.out = epsilon <;> simp [h1, h2]
  found y := by
    simp only [arcStep, mem_setInsert, h.found y, List.mem_append, List.mem_singleton]
    constructor
    · rintro (hy | hy | ⟨x, hx, hy⟩)
      · exact ⟨(s, a), .inr rfl, .inr hy⟩
      · exact ⟨(s, a), .inr rfl, .inl hy⟩
      · exact ⟨x, .inl hx, hy⟩
    · rintro ⟨x, hx | rfl, hy⟩
      · exact .inr (.inr ⟨x, hx, hy⟩)
      · rcases hy with hy | hy
        · exact .inr (.inl hy)
        · exact .inl hy
  acceptor := by
    simp only [arcStep, List.mem_append, List.mem_singleton]
    by_cases hc : a.inp = a.out
    · rw [if_neg (by simpa using hc), h.acceptor]
      constructor
      · rintro h' x (hx | rfl)
        · exact h' x hx
        · exact hc
      · exact fun h' x hx => h' x (.inl hx)
    · rw [if_pos hc]
      exact ⟨fun e => (by cases e), fun h' => absurd (h' (s, a) (.inr rfl)) hc⟩
  cyclic := by
    simp only [arcStep, List.mem_append, List.mem_singleton]
    by_cases hc : (s = 0 ∧ a.target = 0) ∨ s = a.target
    · rw [if_pos hc]
      refine ⟨fun _ => ⟨(s, a), .inr rfl, ?_⟩, fun _ => rfl⟩
      rcases hc with ⟨h1, h2⟩ | h3
      · exact h1.trans h2.symm
      · exact h3
    · rw [if_neg hc, h.cyclic]
      constructor
      · rintro ⟨x, hx, e⟩; exact ⟨x, .inl hx, e⟩
      · rintro ⟨x, hx | rfl, e⟩
        · exact ⟨x, hx, e⟩
        · exact absurd (.inr e) hc
  initial := by
    simp only [arcStep, List.mem_append, List.mem_singleton]
    by_cases hc : s = 0 ∧ a.target = 0
    · rw [if_pos hc]
      exact ⟨fun _ => ⟨(s, a), .inr rfl, hc⟩, fun _ => rfl⟩
    · rw [if_neg hc, h.initial]
      constructor
      · rintro ⟨x, hx, e⟩; exact ⟨x, .inl hx, e⟩
      · rintro ⟨x, hx | rfl, e⟩
        · exact ⟨x, hx, e⟩
        · exact absurd e hc
  pairs := by
    simp only [arcStep, List.map_append, List.map_cons, List.map_nil]
    exact h.pairs.bump _

/-- What is known inside a state after its transitions `d`, where `m` is the summary before it (invariant for
tools/src/hfst-summarize.cc:256-322). -/
structure HInv (m : Summary) (d : List Arc) (p : Summary × Here) : Prop where
  states : p.1.states = m.states
  finals : p.1.finalStates = m.finalStates
  densest : p.1.densest = m.densest
  sparsest : p.1.sparsest = m.sparsest
  uniqI : p.1.uniqInput = m.uniqInput
  uniqO : p.1.uniqOutput = m.uniqOutput
  mostI : p.1.mostInput = m.mostInput
  mostO : p.1.mostOutput = m.mostOutput
  arcs : p.2.arcs = d.length
  ins : Counts p.2.ins (d.map (·.inp))
  outs : Counts p.2.outs (d.map (·.out))
  detI : p.1.inputDeterministic = true ↔ m.inputDeterministic = true ∧ (∀ a ∈ d, a.inp ≠ epsilon) ∧ (d.map (·.inp)).Nodup
  detO : p.1.outputDeterministic = true ↔ m.outputDeterministic = true ∧ (∀ a ∈ d, a.out ≠ epsilon) ∧ (d.map (·.out)).Nodup

theorem det_step (side : Arc → Sym) (b c : Bool) (d : List Arc) (a : Arc) (n : Nat) (hn : n = (d.map side).count (side a) + 1)
    (h : b = true ↔ c = true ∧ (∀ a ∈ d, side a ≠ epsilon) ∧ (d.map side).Nodup) :
    (if decide (side a = epsilon) || decide (n > 1) then false else b) = true ↔
      c = true ∧ (∀ x ∈ d ++ [a], side x ≠ epsilon) ∧ ((d ++ [a]).map side).Nodup := by
  have hm : n > 1 ↔ side a ∈ d.map side := by
    rw [hn, ← List.count_pos_iff]; omega
  have e : ((d ++ [a]).map side).Nodup ↔ (d.map side).Nodup ∧ side a ∉ d.map side := by
    rw [List.map_append, List.nodup_append]
    constructor
    · rintro ⟨h1, _, h3⟩
      exact ⟨h1, fun hx => h3 _ hx (side a) (by simp) rfl⟩
    · rintro ⟨h1, h2⟩
      refine ⟨h1, by simp, ?_⟩
      intro x hx y hy hxy
      simp only [List.map_cons, List.map_nil, List.mem_singleton] at hy
      subst hy; subst hxy
      exact h2 hx
  have e2 : (∀ x ∈ d ++ [a], side x ≠ epsilon) ↔ (∀ x ∈ d, side x ≠ epsilon) ∧ side a ≠ epsilon := by
    simp only [List.mem_append, List.mem_singleton]
    constructor
    · exact fun h' => ⟨fun x hx => h' x (.inl hx), h' a (.inr rfl)⟩
    · rintro ⟨h1, h2⟩ x (hx | rfl)
      · exact h1 x hx
      · exact h2
  rw [e, e2]
  by_cases hc : side a = epsilon ∨ n > 1
  · rw [if_pos (by simpa using hc)]
    refine ⟨fun h' => (by cases h'), ?_⟩
    rintro ⟨_, ⟨_, h1⟩, _, h2⟩
    rcases hc with hc | hc
    · exact absurd hc h1
    · exact absurd (hm.1 hc) h2
  · rw [if_neg (by simpa using hc), h]
    rw [not_or, hm] at hc
    constructor
    · rintro ⟨h1, h2, h3⟩; exact ⟨h1, ⟨h2, hc.1⟩, h3, hc.2⟩
    · rintro ⟨h1, ⟨h2, _⟩, h3, _⟩; exact ⟨h1, h2, h3⟩

theorem HInv.step {m : Summary} {d : List Arc} {p : Summary × Here} (h : HInv m d p) (s : Nat) (a : Arc) :
    HInv m (d ++ [a]) (arcStep s p a) where
  states := h.states
  finals := h.finals
  densest := h.densest
  sparsest := h.sparsest
  uniqI := h.uniqI
  uniqO := h.uniqO
  mostI := h.mostI
  mostO := h.mostO
  arcs := by simp [arcStep, h.arcs]
  ins := by simpa [arcStep] using h.ins.bump a.inp
  outs := by simpa [arcStep] using h.outs.bump a.out
  detI := det_step (·.inp) _ _ d a _ (by rw [(h.ins.bump a.inp).get]; simp [List.count_append]) h.detI
  detO := det_step (·.out) _ _ d a _ (by rw [(h.outs.bump a.out).get]; simp [List.count_append]) h.detO

/-- What is known of the summary after the states `d` (invariant for tools/src/hfst-summarize.cc:241-353). -/
structure SInv (g : Graph) (d : List (List Arc × Nat)) (m : Summary) : Prop where
  states : m.states = d.length
  finals : m.finalStates = d.countP fun p => (g.final p.2).isSome
  all : AInv (d.flatMap fun p => p.1.map (p.2, ·)) m
  detI : m.inputDeterministic = true ↔ ∀ p ∈ d, (∀ a ∈ p.1, a.inp ≠ epsilon) ∧ (p.1.map (·.inp)).Nodup
  detO : m.outputDeterministic = true ↔ ∀ p ∈ d, (∀ a ∈ p.1, a.out ≠ epsilon) ∧ (p.1.map (·.out)).Nodup
  densest : (∀ p ∈ d, p.1.length ≤ m.densest) ∧ (m.densest = 0 ∨ ∃ p ∈ d, m.densest = p.1.length)
  sparsest : (∀ p ∈ d, m.sparsest ≤ p.1.length) ∧ (m.sparsest = 18446744071562067968 ∨ ∃ p ∈ d, m.sparsest = p.1.length)
  uniqI : m.uniqInput = (d.map fun p => (p.1.map (·.inp)).dedup.length).sum
  uniqO : m.uniqOutput = (d.map fun p => (p.1.map (·.out)).dedup.length).sum
  mostI : (∀ p ∈ d, ∀ x, (p.1.map (·.inp)).count x ≤ m.mostInput) ∧ (m.mostInput = 0 ∨ ∃ p ∈ d, ∃ x, m.mostInput = (p.1.map (·.inp)).count x)
  mostO : (∀ p ∈ d, ∀ x, (p.1.map (·.out)).count x ≤ m.mostOutput) ∧ (m.mostOutput = 0 ∨ ∃ p ∈ d, ∃ x, m.mostOutput = (p.1.map (·.out)).count x)

theorem most_step (side : Arc → Sym) (d : List (List Arc × Nat)) (q : List Arc × Nat) (n : Nat) (m : List (Sym × Nat)) (hc : Counts m (q.1.map side))
    (h : (∀ p ∈ d, ∀ x, (p.1.map side).count x ≤ n) ∧ (n = 0 ∨ ∃ p ∈ d, ∃ x, n = (p.1.map side).count x)) :
    (∀ p ∈ d ++ [q], ∀ x, (p.1.map side).count x ≤ most n m) ∧ (most n m = 0 ∨ ∃ p ∈ d ++ [q], ∃ x, most n m = (p.1.map side).count x) := by
  obtain ⟨h1, h2, h3⟩ := most_spec n m
  constructor
  · intro p hp x
    rcases List.mem_append.1 hp with hp | hp
    · exact Nat.le_trans (h.1 p hp x) h1
    · rw [List.mem_singleton] at hp
      subst hp
      by_cases hx : x ∈ p.1.map side
      · obtain ⟨e, he, rfl⟩ := List.mem_map.1 ((hc.2.2 x).2 hx)
        rw [← hc.2.1 e he]
        exact h2 e he
      · rw [List.count_eq_zero.2 hx]; omega
  · rcases h3 with h3 | ⟨e, he, h3⟩
    · rw [h3]
      rcases h.2 with h' | ⟨p, hp, x, h'⟩
      · exact .inl h'
      · exact .inr ⟨p, List.mem_append_left _ hp, x, h'⟩
    · exact .inr ⟨q, by simp, e.1, by rw [h3, hc.2.1 e he]⟩

theorem SInv.step {g : Graph} {d : List (List Arc × Nat)} {m : Summary} (h : SInv g d m) (q : List Arc × Nat) :
    SInv g (d ++ [q]) (stateStep g m q) := by
  obtain ⟨m1, hm1⟩ : ∃ m1 : Summary, m1 = { m with
      states := m.states + 1
      finalStates := if (g.final q.2).isSome then m.finalStates + 1 else m.finalStates } := ⟨_, rfl⟩
  obtain ⟨r, hr⟩ : ∃ r, r = q.1.foldl (arcStep q.2) (m1, ⟨0, [], []⟩) := ⟨_, rfl⟩
  have a0 : AInv (d.flatMap fun p => p.1.map (p.2, ·)) m1 := by
    subst hm1
    exact ⟨h.all.arcs, h.all.io, h.all.inE, h.all.outE, h.all.found, h.all.acceptor, h.all.cyclic, h.all.initial, h.all.pairs⟩
  have a1 : AInv ((d ++ [q]).flatMap fun p => p.1.map (p.2, ·)) r.1 := by
    have := foldl_done (f := arcStep q.2) (fun d' p => AInv ((d.flatMap fun p => p.1.map (p.2, ·)) ++ d'.map (q.2, ·)) p.1)
      (fun d' p b hp => by simpa [List.append_assoc] using AInv.step hp q.2 b) q.1 [] (m1, ⟨0, [], []⟩) (by simpa using a0)
    rw [hr]
    simpa using this
  have c0 : ∀ {K : Type} [BEq K], Counts ([] : List (K × Nat)) [] := by
    intro K _
    exact ⟨by simp, by simp, by simp⟩
  have h1 : HInv m1 q.1 r := by
    have := foldl_done (f := arcStep q.2) (fun d' p => HInv m1 d' p) (fun d' p b hp => HInv.step hp q.2 b) q.1 [] (m1, ⟨0, [], []⟩)
      ⟨rfl, rfl, rfl, rfl, rfl, rfl, rfl, rfl, rfl, by simpa using c0, by simpa using c0, by simp, by simp⟩
    rw [hr]
    simpa using this
  have e : stateStep g m q = { r.1 with
      densest := if r.2.arcs > r.1.densest then r.2.arcs else r.1.densest
      sparsest := if r.2.arcs < r.1.sparsest then r.2.arcs else r.1.sparsest
      mostInput := most r.1.mostInput r.2.ins
      uniqInput := r.1.uniqInput + r.2.ins.length
      mostOutput := most r.1.mostOutput r.2.outs
      uniqOutput := r.1.uniqOutput + r.2.outs.length } := by subst hr; subst hm1; rfl
  rw [e]
  have det : ∀ (side : Arc → Sym) (b c : Bool), (b = true ↔ ∀ p ∈ d, (∀ a ∈ p.1, side a ≠ epsilon) ∧ (p.1.map side).Nodup) →
      (c = true ↔ b = true ∧ (∀ a ∈ q.1, side a ≠ epsilon) ∧ (q.1.map side).Nodup) →
      (c = true ↔ ∀ p ∈ d ++ [q], (∀ a ∈ p.1, side a ≠ epsilon) ∧ (p.1.map side).Nodup) := by
    intro side b c hb hc
    rw [hc, hb]
    constructor
    · rintro ⟨h1, h2⟩ p hp
      rcases List.mem_append.1 hp with hp | hp
      · exact h1 p hp
      · rw [List.mem_singleton] at hp; subst hp; exact h2
    · intro h'
      exact ⟨fun p hp => h' p (List.mem_append_left _ hp), h' q (by simp)⟩
  refine ⟨?_, ?_, ?_, ?_, ?_, ?_, ?_, ?_, ?_, ?_, ?_⟩
  · simp [h1.states, hm1, h.states]
  · simp only [h1.finals, hm1, h.finals, List.countP_append, List.countP_cons, List.countP_nil]
    split <;> simp
  · exact ⟨a1.arcs, a1.io, a1.inE, a1.outE, a1.found, a1.acceptor, a1.cyclic, a1.initial, a1.pairs⟩
  · exact det _ m1.inputDeterministic _ (by rw [hm1]; exact h.detI) h1.detI
  · exact det _ m1.outputDeterministic _ (by rw [hm1]; exact h.detO) h1.detO
  · have e1 : m1.densest = m.densest := by rw [hm1]
    simp only [h1.densest, h1.arcs, e1]
    obtain ⟨i1, i2⟩ := h.densest
    constructor
    · intro p hp
      rcases List.mem_append.1 hp with hp | hp
      · have := i1 p hp; split <;> omega
      · rw [List.mem_singleton] at hp; subst hp; split <;> omega
    · by_cases hc : q.1.length > m.densest
      · rw [if_pos hc]; exact .inr ⟨q, by simp, rfl⟩
      · rw [if_neg hc]
        rcases i2 with i2 | ⟨p, hp, i2⟩
        · exact .inl i2
        · exact .inr ⟨p, List.mem_append_left _ hp, i2⟩
  · have e1 : m1.sparsest = m.sparsest := by rw [hm1]
    simp only [h1.sparsest, h1.arcs, e1]
    obtain ⟨i1, i2⟩ := h.sparsest
    constructor
    · intro p hp
      rcases List.mem_append.1 hp with hp | hp
      · have := i1 p hp; split <;> omega
      · rw [List.mem_singleton] at hp; subst hp; split <;> omega
    · by_cases hc : q.1.length < m.sparsest
      · rw [if_pos hc]; exact .inr ⟨q, by simp, rfl⟩
      · rw [if_neg hc]
        rcases i2 with i2 | ⟨p, hp, i2⟩
        · exact .inl i2
        · exact .inr ⟨p, List.mem_append_left _ hp, i2⟩
  · simp [h1.uniqI, hm1, h.uniqI, h1.ins.length]
  · simp [h1.uniqO, hm1, h.uniqO, h1.outs.length]
  · have e1 : r.1.mostInput = m.mostInput := by rw [h1.mostI, hm1]
    simp only [e1]
    exact most_step (·.inp) d q _ _ h1.ins h.mostI
  · have e1 : r.1.mostOutput = m.mostOutput := by rw [h1.mostO, hm1]
    simp only [e1]
    exact most_step (·.out) d q _ _ h1.outs h.mostO

theorem summarize_inv (g : Graph) : SInv g g.states.zipIdx (summarize g) := by
  have := foldl_done (f := stateStep g) (SInv g) (fun d m q h => h.step q) g.states.zipIdx [] start
    ⟨rfl, rfl, ⟨rfl, rfl, rfl, rfl, by simp [start], by simp [start], by simp [start], by simp [start], by simp [start, Counts]⟩,
      by simp [start], by simp [start], by simp [start], by simp [start], rfl, rfl, by simp [start], by simp [start]⟩
  rw [List.nil_append] at this
  exact this

theorem mem_allArcs (g : Graph) (s : Nat) (a : Arc) : (s, a) ∈ allArcs g ↔ a ∈ g.arcs s := by
  unfold allArcs Graph.arcs
  simp only [List.mem_flatMap, List.mem_map, Prod.exists, List.mem_zipIdx_iff_getElem?, Prod.mk.injEq]
  constructor
  · rintro ⟨l, i, h1, b, hb, rfl, rfl⟩
    simpa [h1] using hb
  · intro h
    cases e : g.states[s]? with
    | none => simp [e] at h
    | some l => exact ⟨l, s, e, a, by simpa [e] using h, rfl, rfl⟩

/-- **C100, the numbers**: the states, the transitions, the final states, and the transitions without a symbol on both levels, on the input
level and on the output level are counted correctly. -/
theorem C100_counts (g : Graph) :
    (summarize g).states = g.states.length ∧
    (summarize g).arcs = (g.states.map List.length).sum ∧
    (summarize g).finalStates = (List.range g.states.length).countP (fun s => (g.final s).isSome) ∧
    (summarize g).ioEpsilons = (allArcs g).countP (fun x => decide (x.2.inp = epsilon) && decide (x.2.out = epsilon)) ∧
    (summarize g).inputEpsilons = (allArcs g).countP (fun x => decide (x.2.inp = epsilon)) ∧
    (summarize g).outputEpsilons = (allArcs g).countP (fun x => decide (x.2.out = epsilon)) := by
  have h := summarize_inv g
  refine ⟨by simpa using h.states, ?_, ?_, h.all.io, h.all.inE, h.all.outE⟩
  · rw [h.all.arcs, List.length_flatMap]
    have : (g.states.zipIdx.map Prod.fst).map List.length = g.states.map List.length := by rw [List.zipIdx_map_fst]
    rw [← this, List.map_map]
    congr 1
    apply List.map_congr_left
    intro p _
    simp
  · have : (g.states.zipIdx.map Prod.snd) = List.range g.states.length := by rw [List.zipIdx_map_snd, List.range_eq_range']
    rw [h.finals, ← this, List.countP_map]
    rfl

theorem states_zipIdx (g : Graph) (P : List Arc → Prop) : (∀ p ∈ g.states.zipIdx, P p.1) ↔ ∀ l ∈ g.states, P l := by
  constructor
  · intro h l hl
    obtain ⟨i, hi⟩ := List.mem_iff_getElem?.1 hl
    exact h (l, i) (List.mem_zipIdx_iff_getElem?.2 hi)
  · intro h p hp
    exact h p.1 (List.mem_of_getElem? (List.mem_zipIdx_iff_getElem?.1 hp))

theorem states_zipIdx_ex (g : Graph) (P : List Arc → Prop) : (∃ p ∈ g.states.zipIdx, P p.1) ↔ ∃ l ∈ g.states, P l := by
  constructor
  · rintro ⟨p, hp, h⟩
    exact ⟨p.1, List.mem_of_getElem? (List.mem_zipIdx_iff_getElem?.1 hp), h⟩
  · rintro ⟨l, hl, h⟩
    obtain ⟨i, hi⟩ := List.mem_iff_getElem?.1 hl
    exact ⟨(l, i), List.mem_zipIdx_iff_getElem?.2 hi, h⟩

/-- **C100, the answers**: "acceptor" is yes exactly if all transitions have the same symbol on both levels, and "input deterministic" and
"output deterministic" exactly if the transducer is so. -/
theorem C100_answers (g : Graph) :
    ((summarize g).acceptor = true ↔ ∀ s, ∀ a ∈ g.arcs s, a.inp = a.out) ∧
    ((summarize g).inputDeterministic = true ↔ Deterministic (·.inp) g) ∧
    ((summarize g).outputDeterministic = true ↔ Deterministic (·.out) g) := by
  have h := summarize_inv g
  refine ⟨?_, ?_, ?_⟩
  · rw [h.all.acceptor]
    constructor
    · exact fun h' s a ha => h' (s, a) ((mem_allArcs g s a).2 ha)
    · exact fun h' x hx => h' x.1 x.2 ((mem_allArcs g x.1 x.2).1 hx)
  · rw [h.detI]
    exact states_zipIdx g (fun l => (∀ a ∈ l, a.inp ≠ epsilon) ∧ (l.map (·.inp)).Nodup)
  · rw [h.detO]
    exact states_zipIdx g (fun l => (∀ a ∈ l, a.out ≠ epsilon) ∧ (l.map (·.out)).Nodup)

/-- **C100, the extremes**: the sparsest and the densest state have as many transitions as printed, and the most ambiguous symbol of each
level occurs as often in one state as printed.  (No state has more than 2 to the power of 63 transitions.) -/
theorem C100_extremes (g : Graph) (hg : g.states ≠ []) (hb : ∀ l ∈ g.states, l.length < 2 ^ 63) :
    (∀ l ∈ g.states, (summarize g).sparsest ≤ l.length ∧ l.length ≤ (summarize g).densest) ∧
    (∃ l ∈ g.states, l.length = (summarize g).sparsest) ∧ (∃ l ∈ g.states, l.length = (summarize g).densest) ∧
    (∀ l ∈ g.states, ∀ x, (l.map (·.inp)).count x ≤ (summarize g).mostInput ∧ (l.map (·.out)).count x ≤ (summarize g).mostOutput) ∧
    (∃ l ∈ g.states, ∃ x, (l.map (·.inp)).count x = (summarize g).mostInput) ∧
    (∃ l ∈ g.states, ∃ x, (l.map (·.out)).count x = (summarize g).mostOutput) := by
  have h := summarize_inv g
  obtain ⟨l0, hl0⟩ := List.exists_mem_of_ne_nil _ hg
  have hs := (states_zipIdx g (fun l => (summarize g).sparsest ≤ l.length)).1 h.sparsest.1
  have hd := (states_zipIdx g (fun l => l.length ≤ (summarize g).densest)).1 h.densest.1
  have hi := (states_zipIdx g (fun l => ∀ x, (l.map (·.inp)).count x ≤ (summarize g).mostInput)).1 h.mostI.1
  have ho := (states_zipIdx g (fun l => ∀ x, (l.map (·.out)).count x ≤ (summarize g).mostOutput)).1 h.mostO.1
  refine ⟨fun l hl => ⟨hs l hl, hd l hl⟩, ?_, ?_, fun l hl x => ⟨hi l hl x, ho l hl x⟩, ?_, ?_⟩
  · rcases h.sparsest.2 with e | e
    · have h1 := hs l0 hl0
      have h2 := hb l0 hl0
      omega
    · obtain ⟨l, hl, e⟩ := (states_zipIdx_ex g (fun l => (summarize g).sparsest = l.length)).1 e
      exact ⟨l, hl, e.symm⟩
  · rcases h.densest.2 with e | e
    · have h1 := hd l0 hl0
      exact ⟨l0, hl0, by omega⟩
    · obtain ⟨l, hl, e⟩ := (states_zipIdx_ex g (fun l => (summarize g).densest = l.length)).1 e
      exact ⟨l, hl, e.symm⟩
  · rcases h.mostI.2 with e | e
    · have h1 := hi l0 hl0 epsilon
      exact ⟨l0, hl0, epsilon, by omega⟩
    · obtain ⟨l, hl, x, e⟩ := (states_zipIdx_ex g (fun l => ∃ x, (summarize g).mostInput = (l.map (·.inp)).count x)).1 e
      exact ⟨l, hl, x, e.symm⟩
  · rcases h.mostO.2 with e | e
    · have h1 := ho l0 hl0 epsilon
      exact ⟨l0, hl0, epsilon, by omega⟩
    · obtain ⟨l, hl, x, e⟩ := (states_zipIdx_ex g (fun l => ∃ x, (summarize g).mostOutput = (l.map (·.out)).count x)).1 e
      exact ⟨l, hl, x, e.symm⟩

/-- **C100, the denominators of the average ambiguities**: the different symbols of each level, counted for each state. -/
theorem C100_different (g : Graph) :
    (summarize g).uniqInput = (g.states.map fun l => (l.map (·.inp)).dedup.length).sum ∧
    (summarize g).uniqOutput = (g.states.map fun l => (l.map (·.out)).dedup.length).sum := by
  have h := summarize_inv g
  have e : ∀ f : List Arc → Nat, (g.states.zipIdx.map fun p => f p.1) = g.states.map f := by
    intro f
    have : (g.states.zipIdx.map Prod.fst).map f = g.states.map f := by rw [List.zipIdx_map_fst]
    rw [← this, List.map_map]
    rfl
  exact ⟨by rw [h.uniqI, e fun l => (l.map (·.inp)).dedup.length], by rw [h.uniqO, e fun l => (l.map (·.out)).dedup.length]⟩

/-- **C100, the symbols**: the symbols printed as seen are those of the transitions, and the missing ones are the others of the alphabet. -/
theorem C100_symbols (g : Graph) (y : Sym) :
    (y ∈ (summarize g).found ↔ ∃ s, ∃ a ∈ g.arcs s, y = a.inp ∨ y = a.out) ∧
    (y ∈ missing g ↔ y ∈ g.alphabet ∧ ¬ ∃ s, ∃ a ∈ g.arcs s, y = a.inp ∨ y = a.out) := by
  have h : y ∈ (summarize g).found ↔ ∃ s, ∃ a ∈ g.arcs s, y = a.inp ∨ y = a.out := by
    rw [(summarize_inv g).all.found y]
    constructor
    · rintro ⟨x, hx, e⟩
      exact ⟨x.1, x.2, (mem_allArcs g x.1 x.2).1 hx, e⟩
    · rintro ⟨s, a, ha, e⟩
      exact ⟨(s, a), (mem_allArcs g s a).2 ha, e⟩
  refine ⟨h, ?_⟩
  unfold missing
  rw [List.mem_filter, ← h]
  simp

/-- **C100, -S**: each symbol pair of the transducer that occurs at most as often as asked for is printed once, with the number of its
transitions; without a number all pairs are. -/
theorem C100_pairs (g : Graph) (threshold : Option Nat) :
    ((printedPairs threshold g).map (·.1)).Nodup ∧
    ∀ q n, (q, n) ∈ printedPairs threshold g ↔
      0 < n ∧ n = (allArcs g).countP (fun x => decide (x.2.label = q)) ∧ ∀ k, threshold = some k → n ≤ k := by
  obtain ⟨h1, h2, h3⟩ := (summarize_inv g).all.pairs
  have hc : ∀ q, ((g.states.zipIdx.flatMap fun p => p.1.map (p.2, ·)).map fun x => x.2.label).count q =
      (allArcs g).countP (fun x => decide (x.2.label = q)) := by
    intro q
    rw [List.count, List.countP_map]
    apply List.countP_congr
    intro x _
    simp
  refine ⟨(List.Sublist.map _ List.filter_sublist).nodup h1, fun q n => ?_⟩
  have hm : (q, n) ∈ (summarize g).pairs ↔ 0 < n ∧ n = (allArcs g).countP (fun x => decide (x.2.label = q)) := by
    rw [← hc]
    constructor
    · intro h
      have e := h2 _ h
      refine ⟨?_, e⟩
      have : q ∈ (summarize g).pairs.map (·.1) := List.mem_map.2 ⟨_, h, rfl⟩
      have := List.count_pos_iff.2 ((h3 q).1 this)
      simp only at e
      omega
    · rintro ⟨hp, e⟩
      rw [e] at hp
      obtain ⟨x, hx, rfl⟩ := List.mem_map.1 ((h3 q).2 (List.count_pos_iff.1 hp))
      rw [e, ← h2 x hx]
      exact hx
  unfold printedPairs
  rw [List.mem_filter, hm]
  cases threshold with
  | none => simp
  | some k => simp [and_assoc]

/-- **C100, cycles (partial)**: "cyclic" is yes only if the transducer has a cycle, and "cyclic at initial state" only if the initial state
has; the answer is yes exactly if some transition leads back to the state it leaves.  Missing: longer cycles (`C100_cyclic_violated`). -/
theorem C100_cyclic_partial (g : Graph) :
    ((summarize g).cyclic = true ↔ ∃ s, Edge g s s) ∧ ((summarize g).cyclicAtInitial = true ↔ Edge g 0 0) ∧
    ((summarize g).cyclic = true → Cyclic g) ∧ ((summarize g).cyclicAtInitial = true → CyclicAtInitial g) := by
  have h := (summarize_inv g).all
  have h1 : (summarize g).cyclic = true ↔ ∃ s, Edge g s s := by
    rw [h.cyclic]
    constructor
    · rintro ⟨x, hx, e⟩
      exact ⟨x.1, x.2, (mem_allArcs g x.1 x.2).1 hx, e.symm⟩
    · rintro ⟨s, a, ha, e⟩
      exact ⟨(s, a), (mem_allArcs g s a).2 ha, e.symm⟩
  have h2 : (summarize g).cyclicAtInitial = true ↔ Edge g 0 0 := by
    rw [h.initial]
    constructor
    · rintro ⟨⟨s, a⟩, hx, e1, e2⟩
      simp only at e1 e2
      subst e1
      exact ⟨a, (mem_allArcs g 0 a).1 hx, e2⟩
    · rintro ⟨a, ha, e⟩
      exact ⟨(0, a), (mem_allArcs g 0 a).2 ha, rfl, e⟩
  refine ⟨h1, h2, fun hc => ?_, fun hc => ?_⟩
  · obtain ⟨s, hs⟩ := h1.1 hc
    exact ⟨s, .single hs⟩
  · exact .single (h2.1 hc)

/-- The transducer of `[a b]*`: two states (an example for tools/src/hfst-summarize.cc:241-353). -/
def twoCycle : Graph :=
  ⟨[[⟨1, ['a'], ['a'], 0⟩], [⟨0, ['b'], ['b'], 0⟩]], [(0, 0)], [epsilon, unknown, identity, ['a'], ['b']]⟩

/-- **C100, cycles (violated)**: for the transducer of `[a b]*`, which is cyclic at the initial state, both answers are no. -/
theorem C100_cyclic_violated : Cyclic twoCycle ∧ CyclicAtInitial twoCycle ∧
    (summarize twoCycle).cyclic = false ∧ (summarize twoCycle).cyclicAtInitial = false := by
  have h : CyclicAtInitial twoCycle := by
    refine Relation.TransGen.tail (.single (b := 1) ⟨⟨1, ['a'], ['a'], 0⟩, ?_, rfl⟩) ⟨⟨0, ['b'], ['b'], 0⟩, ?_, rfl⟩ <;> decide
  exact ⟨⟨0, h⟩, h, by decide +kernel, by decide +kernel⟩

/-! ## Cases that meet the hypotheses -/

/-- A transducer with two transitions for `a` in one state, one of them without output (an example for
tools/src/hfst-summarize.cc:241-353). -/
def small : Graph :=
  ⟨[[⟨1, ['a'], ['b'], 0⟩, ⟨1, ['a'], epsilon, 0⟩, ⟨0, ['c'], ['c'], 0⟩], []], [(1, 0)],
    [epsilon, unknown, identity, ['a'], ['b'], ['c'], ['d']]⟩

example : (summarize small).states = 2 ∧ (summarize small).arcs = 3 ∧ (summarize small).finalStates = 1 ∧
    (summarize small).outputEpsilons = 1 ∧ (summarize small).acceptor = false ∧ (summarize small).inputDeterministic = false ∧
    (summarize small).cyclic = true ∧ (summarize small).mostInput = 2 ∧ (summarize small).uniqInput = 2 ∧
    (summarize small).sparsest = 0 ∧ (summarize small).densest = 3 := by decide +kernel

example : small.states ≠ [] ∧ ∀ l ∈ small.states, l.length < 2 ^ 63 := by decide

example : ['d'] ∈ missing small ∧ ['a'] ∉ missing small ∧ (printedPairs (some 1) small).length = 3 := by decide +kernel

/-- The transducer of `[a b]*` is deterministic on both levels, and an acceptor. -/
example : Deterministic (·.inp) twoCycle ∧ (summarize twoCycle).acceptor = true :=
  ⟨(C100_answers twoCycle).2.1.1 (by decide +kernel), by decide +kernel⟩

end Hfst.Summarize
