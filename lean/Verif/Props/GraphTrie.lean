import Verif.Props.GraphOps
import Mathlib.Logic.Function.Basic
import Mathlib.Tactic.Set

/-!
# C20: a trie built by `disjunct`
-/
namespace Hfst.Basic
open Graph

/-- A sequence of calls `disjunct(spv, weight)` on a new transducer. -/
def runDisjunct (g : Graph) : List (List (Sym × Sym) × Int) → Outcome Graph
  | [] => .ok g
  | (l, w) :: calls =>
    match g.disjunct l w with
    | .ok g' => runDisjunct g' calls
    | r => r

/-- The transitions of `g` form a tree with root 0; `f s` is the sequence of pairs leading to state `s`. -/
structure Tree (g : Graph) (f : Nat → List (Sym × Sym)) : Prop where
  wf : WF g
  root : f 0 = []
  step : ∀ s, ∀ a ∈ g.arcs s, f a.target = f s ++ [a.label] ∧ a.weight = 0
  inj : ∀ s t, s < g.states.length → t < g.states.length → f s = f t → s = t
  into : ∀ t, t < g.states.length → t ≠ 0 → ∃ s a, a ∈ g.arcs s ∧ a.target = t

theorem Tree.init : Tree Graph.init (fun _ => []) := by
  refine ⟨WF.init, rfl, ?_, ?_, ?_⟩
  · intro s a h
    have hs := lt_of_mem_arcs h
    simp only [Graph.init, List.length_cons, List.length_nil, Nat.zero_add, Nat.lt_one_iff] at hs
    subst hs
    simp [Graph.arcs, Graph.init] at h
  · intro s t hs ht _
    simp [Graph.init] at hs ht; omega
  · intro t ht h0
    simp [Graph.init] at ht; omega

theorem Tree.path_of {g : Graph} {f : Nat → List (Sym × Sym)} (h : Tree g f) {s q : Nat} {l : List (Sym × Sym)}
    {w : Int} (hp : Path g s l w q) : f q = f s ++ l ∧ w = 0 := by
  induction hp with
  | nil s => simp
  | cons ha _ ih =>
    have := h.step _ _ ha
    rw [ih.1, this.1, ih.2, this.2]
    simp [Arc.label]

theorem Tree.reach {g : Graph} {f : Nat → List (Sym × Sym)} (h : Tree g f) (q : Nat) (hq : q < g.states.length) :
    Path g 0 (f q) 0 q := by
  generalize hn : (f q).length = n
  induction n using Nat.strongRecOn generalizing q with
  | _ n ih =>
    by_cases h0 : q = 0
    · subst h0; rw [h.root]; exact .nil 0
    · obtain ⟨s, a, ha, ht⟩ := h.into q hq h0
      have hs := h.step s a ha
      rw [ht] at hs
      have hlt := lt_of_mem_arcs ha
      have := ih (f s).length (by rw [← hn, hs.1]; simp) s hlt rfl
      have := this.append (Path.single ha)
      rw [hs.1]
      rw [hs.2, ht] at this
      exact this

theorem Tree.accepts {g : Graph} {f : Nat → List (Sym × Sym)} (h : Tree g f) (l : List (Sym × Sym)) (w : Int) :
    Accepts g l w ↔ ∃ q, f q = l ∧ g.final q = some w := by
  constructor
  · rintro ⟨q, v, u, hp, hf, rfl⟩
    obtain ⟨h1, h2⟩ := h.path_of hp
    rw [h.root] at h1
    exact ⟨q, by simpa using h1, by rw [hf, h2]; simp⟩
  · rintro ⟨q, rfl, hf⟩
    exact ⟨q, 0, w, h.reach q (h.wf.finals q w hf), hf, by simp⟩

theorem Tree.disjunctPath {g : Graph} {f : Nat → List (Sym × Sym)} (h : Tree g f) (spv : List (Sym × Sym)) (s : Nat)
    (hs : s < g.states.length) :
    ∃ f', Tree (g.disjunctPath spv s).1 f' ∧ (∀ t, t < g.states.length → f' t = f t) ∧
      f' (g.disjunctPath spv s).2 = f s ++ spv ∧ (g.disjunctPath spv s).2 < (g.disjunctPath spv s).1.states.length ∧
      (∀ t, (g.disjunctPath spv s).1.final t = g.final t) := by
  induction spv generalizing g f s with
  | nil => exact ⟨f, h, fun _ _ => rfl, by simp [Graph.disjunctPath], hs, fun _ => rfl⟩
  | cons p rest ih =>
    unfold Graph.disjunctPath
    split
    · rename_i a ha
      have hm := List.mem_of_find?_eq_some ha
      have hp := List.find?_some ha
      simp only [Bool.and_eq_true, decide_eq_true_eq] at hp
      obtain ⟨f', h1, h2, h3, h4, h5⟩ := ih h a.target (h.wf.targets s a hm)
      refine ⟨f', h1, h2, ?_, h4, h5⟩
      rw [h3, (h.step s a hm).1]
      simp [Arc.label, hp.1, hp.2]
    · rename_i hnone
      have hno : ∀ a ∈ g.arcs s, a.label ≠ p := by
        intro a ha e
        have := List.find?_eq_none.mp hnone a ha
        simp only [Bool.and_eq_true, decide_eq_true_eq] at this
        exact this ⟨by rw [← e]; rfl, by rw [← e]; rfl⟩
      simp only []
      set n := g.states.length with hn
      set b : Arc := { target := n, inp := p.1, out := p.2, weight := 0 } with hb
      set g1 := g.addState.1.addTransition s b with hg1
      have hlen : g1.states.length = n + 1 := by
        rw [hg1, length_addTransition, length_addState]; simp [hb]; omega
      have harcs : ∀ t, g1.arcs t = if t = s then g.arcs t ++ [b] else g.arcs t := by
        intro t; rw [hg1, arcs_addTransition, arcs_addState, arcs_addState]; split <;> simp_all
      have hfin : ∀ t, g1.final t = g.final t := fun t => by rw [hg1, final_addTransition]; rfl
      set f1 := Function.update f n (f s ++ [p]) with hf1
      have hf1o : ∀ t, t < n → f1 t = f t := fun t ht => by rw [hf1, Function.update_of_ne (by omega)]
      have hf1n : f1 n = f s ++ [p] := by rw [hf1, Function.update_self]
      have hnew : ∀ t, t < n → f t ≠ f s ++ [p] := by
        intro t ht e
        by_cases h0 : t = 0
        · subst h0; rw [h.root] at e; simp at e
        · obtain ⟨s', a, ha, hat⟩ := h.into t ht h0
          have h1 := (h.step s' a ha).1
          rw [hat, e] at h1
          have h2 := List.append_inj' h1 rfl
          have := h.inj s s' hs (lt_of_mem_arcs ha) h2.1
          subst this
          refine hno a ha ?_
          have := h2.2
          simp at this
          exact this.symm
      have hT : Tree g1 f1 := by
        refine ⟨?_, ?_, ?_, ?_, ?_⟩
        · exact h.wf.addState.addTransition s b true
        · rw [hf1o 0 h.wf.nonempty, h.root]
        · intro t a ha
          rw [harcs] at ha
          have old : a ∈ g.arcs t → f1 a.target = f1 t ++ [a.label] ∧ a.weight = 0 := by
            intro ha
            rw [hf1o _ (h.wf.targets t a ha), hf1o _ (lt_of_mem_arcs ha)]
            exact h.step t a ha
          split at ha
          · rename_i e
            rcases List.mem_append.mp ha with ha | ha
            · exact old ha
            · simp only [List.mem_singleton] at ha
              subst ha
              subst e
              rw [hf1o t hs]
              exact ⟨hf1n, rfl⟩
          · exact old ha
        · intro t u ht hu e
          rw [hlen] at ht hu
          by_cases h1 : t = n
          · by_cases h2 : u = n
            · omega
            · subst h1
              rw [hf1n, hf1o u (by omega)] at e
              exact absurd e.symm (hnew u (by omega))
          · by_cases h2 : u = n
            · subst h2
              rw [hf1n, hf1o t (by omega)] at e
              exact absurd e (hnew t (by omega))
            · rw [hf1o t (by omega), hf1o u (by omega)] at e
              exact h.inj t u (by omega) (by omega) e
        · intro t ht h0
          rw [hlen] at ht
          by_cases h1 : t = n
          · subst h1
            exact ⟨s, b, by rw [harcs]; simp, rfl⟩
          · obtain ⟨s', a, ha, hat⟩ := h.into t (by omega) h0
            refine ⟨s', a, ?_, hat⟩
            rw [harcs]
            split
            · exact List.mem_append.mpr (.inl ha)
            · exact ha
      obtain ⟨f', h1, h2, h3, h4, h5⟩ := ih hT n (by omega)
      refine ⟨f', h1, ?_, ?_, h4, ?_⟩
      · intro t ht; rw [h2 t (by omega), hf1o t ht]
      · have : f' (g1.disjunctPath rest n).2 = f s ++ p :: rest := by rw [h3, hf1n]; simp
        exact this
      · intro t; rw [← hfin t]; exact h5 t

theorem Tree.disjunct {g g' : Graph} {f : Nat → List (Sym × Sym)} (h : Tree g f) (spv : List (Sym × Sym)) (w : Int)
    (hd : g.disjunct spv w = .ok g') :
    ∃ f', Tree g' f' ∧ ∀ l v, Accepts g' l v ↔
      (l ≠ spv ∧ Accepts g l v) ∨
      (l = spv ∧ ((v = w ∧ ∀ u, Accepts g l u → w ≤ u) ∨ (Accepts g l v ∧ v ≤ w))) := by
  unfold Graph.disjunct at hd
  split at hd
  · cases hd
  simp only [] at hd
  obtain ⟨f', h1, h2, h3, h4, h5⟩ := h.disjunctPath spv 0 h.wf.nonempty
  rw [h.root, List.nil_append] at h3
  generalize hr : g.disjunctPath spv 0 = r at *
  obtain ⟨g1, q⟩ := r
  simp only at *
  -- acceptance in the graph after the path has been added
  have hacc1 : ∀ l v, Accepts g1 l v ↔ Accepts g l v := by
    intro l v
    rw [h1.accepts, h.accepts]
    constructor
    · rintro ⟨t, ht, hf⟩
      rw [h5] at hf
      exact ⟨t, by rw [← h2 t (h.wf.finals t v hf)]; exact ht, hf⟩
    · rintro ⟨t, ht, hf⟩
      exact ⟨t, by rw [h2 t (h.wf.finals t v hf)]; exact ht, by rw [h5]; exact hf⟩
  have uniq : ∀ u, Accepts g1 spv u ↔ g1.final q = some u := by
    intro u
    rw [h1.accepts]
    constructor
    · rintro ⟨t, ht, hf⟩
      have := h1.inj t q (h1.wf.finals t u hf) h4 (by rw [ht, h3])
      subst this; exact hf
    · intro hf; exact ⟨q, h3, hf⟩
  have hset : Tree (g1.setFinal q w) f' := by
    have hlen : (g1.setFinal q w).states.length = g1.states.length := by
      simp only [Graph.setFinal, Graph.addStateN, List.length_append, List.length_replicate]; omega
    refine ⟨h1.wf.setFinal q w, h1.root, ?_, ?_, ?_⟩
    · intro s a ha; rw [arcs_setFinal] at ha; exact h1.step s a ha
    · intro s t hs ht; rw [hlen] at hs ht; exact h1.inj s t hs ht
    · intro t ht h0
      rw [hlen] at ht
      obtain ⟨s, a, ha, hat⟩ := h1.into t ht h0
      exact ⟨s, a, by rw [arcs_setFinal]; exact ha, hat⟩
  have hsetacc : ∀ l v, Accepts (g1.setFinal q w) l v ↔ (l ≠ spv ∧ Accepts g1 l v) ∨ (l = spv ∧ v = w) := by
    intro l v
    rw [hset.accepts, h1.accepts]
    constructor
    · rintro ⟨t, rfl, hf⟩
      rw [final_setFinal] at hf
      split at hf
      · rename_i e
        subst e
        right; exact ⟨h3, by simpa using hf.symm⟩
      · rename_i e
        left
        exact ⟨fun e' => e (h1.inj t q (h1.wf.finals t v hf) h4 (by rw [e', h3])), t, rfl, hf⟩
    · rintro (⟨hl, t, rfl, hf⟩ | ⟨rfl, rfl⟩)
      · refine ⟨t, rfl, ?_⟩
        rw [final_setFinal, if_neg (fun e => hl (by rw [e, h3]))]
        exact hf
      · exact ⟨q, h3, by rw [final_setFinal, if_pos rfl]⟩
  simp only [← hacc1]
  split at hd
  · rename_i old hold
    split at hd
    · rename_i hlt
      cases hd
      refine ⟨f', h1, fun l v => ?_⟩
      by_cases e : l = spv
      · subst e
        simp only [uniq, hold, Option.some.injEq]
        constructor
        · intro h; subst h; right; exact ⟨trivial, .inr ⟨rfl, by omega⟩⟩
        · rintro (⟨h, _⟩ | ⟨_, ⟨rfl, h⟩ | ⟨h, _⟩⟩)
          · exact absurd rfl h
          · have := h old rfl; omega
          · exact h
      · simp [e]
    · rename_i hlt
      cases hd
      refine ⟨f', hset, fun l v => ?_⟩
      rw [hsetacc]
      by_cases e : l = spv
      · subst e
        simp only [uniq, hold, Option.some.injEq, ne_eq, not_true_eq_false, false_and, false_or, true_and]
        constructor
        · rintro rfl; left; exact ⟨rfl, by rintro u rfl; omega⟩
        · rintro (⟨h, _⟩ | ⟨rfl, h⟩)
          · exact h
          · omega
      · simp [e]
  · rename_i hold
    cases hd
    refine ⟨f', hset, fun l v => ?_⟩
    rw [hsetacc]
    by_cases e : l = spv
    · subst e
      simp [uniq, hold]
    · simp [e]

theorem Tree.run {g g' : Graph} {f : Nat → List (Sym × Sym)} (h : Tree g f) (calls : List (List (Sym × Sym) × Int))
    (hd : runDisjunct g calls = .ok g') : ∃ f', Tree g' f' := by
  induction calls generalizing g f with
  | nil => cases hd; exact ⟨f, h⟩
  | cons c calls ih =>
    obtain ⟨l, w⟩ := c
    simp only [runDisjunct] at hd
    split at hd
    · rename_i g1 h1
      obtain ⟨f1, h1, _⟩ := h.disjunct l w h1
      exact ih h1 hd
    · rename_i hn; exact absurd hd (hn g')

theorem exists_smallest (l : List (Sym × Sym)) (done : List (List (Sym × Sym) × Int)) (h : ∃ u, (l, u) ∈ done) :
    ∃ u, (l, u) ∈ done ∧ ∀ u', (l, u') ∈ done → u ≤ u' := by
  revert h
  induction done with
  | nil => rintro ⟨u, hu⟩; simp at hu
  | cons d done ih =>
    rintro ⟨u, hu⟩
    by_cases hex : ∃ u, (l, u) ∈ done
    · obtain ⟨m, hm, hmm⟩ := ih hex
      by_cases hd : d.1 = l
      · by_cases hle : d.2 ≤ m
        · refine ⟨d.2, by simp [← hd], ?_⟩
          intro u' hu'
          rcases List.mem_cons.mp hu' with e | e
          · rw [← e]; exact Int.le_refl _
          · have := hmm u' e; omega
        · refine ⟨m, by simp [hm], ?_⟩
          intro u' hu'
          rcases List.mem_cons.mp hu' with e | e
          · have : d.2 = u' := by rw [← e]
            omega
          · exact hmm u' e
      · refine ⟨m, by simp [hm], ?_⟩
        intro u' hu'
        rcases List.mem_cons.mp hu' with e | e
        · exact absurd (by rw [← e]) hd
        · exact hmm u' e
    · refine ⟨u, hu, ?_⟩
      intro u' hu'
      rcases List.mem_cons.mp hu' with e | e
      · rcases List.mem_cons.mp hu with e2 | e2
        · rw [← e] at e2; simp at e2; omega
        · exact absurd ⟨u, e2⟩ hex
      · exact absurd ⟨u', e⟩ hex

/-- C20, one call: on a trie built by earlier calls, adding `spv` with weight `w` adds exactly that sequence.  Its
weight is the smaller of `w` and its old weight; no other sequence is affected. -/
theorem C20_disjunct (calls : List (List (Sym × Sym) × Int)) (g g' : Graph) (hg : runDisjunct Graph.init calls = .ok g)
    (spv : List (Sym × Sym)) (w : Int) (h : g.disjunct spv w = .ok g') (l : List (Sym × Sym)) (v : Int) :
    Accepts g' l v ↔
      (l ≠ spv ∧ Accepts g l v) ∨
      (l = spv ∧ ((v = w ∧ ∀ u, Accepts g l u → w ≤ u) ∨ (Accepts g l v ∧ v ≤ w))) := by
  obtain ⟨f, hT⟩ := Tree.init.run calls hg
  obtain ⟨_, _, h⟩ := hT.disjunct spv w h
  exact h l v

/-- C20, all calls: a trie built by a sequence of calls accepts exactly the sequences that were added, each with the
smallest weight it was added with. -/
theorem C20_history (calls : List (List (Sym × Sym) × Int)) (g : Graph) (h : runDisjunct Graph.init calls = .ok g)
    (l : List (Sym × Sym)) (v : Int) :
    Accepts g l v ↔ (l, v) ∈ calls ∧ ∀ u, (l, u) ∈ calls → v ≤ u := by
  -- generalise the starting point: `done` are the calls made so far
  suffices ∀ (rest done : List (List (Sym × Sym) × Int)) (g0 : Graph) (f : Nat → List (Sym × Sym)), Tree g0 f →
      (∀ l v, Accepts g0 l v ↔ (l, v) ∈ done ∧ ∀ u, (l, u) ∈ done → v ≤ u) → runDisjunct g0 rest = .ok g →
      ∀ l v, Accepts g l v ↔ (l, v) ∈ done ++ rest ∧ ∀ u, (l, u) ∈ done ++ rest → v ≤ u by
    refine this calls [] Graph.init _ Tree.init ?_ h l v
    intro l v
    rw [Tree.init.accepts]
    simp [Graph.final, Graph.init, mapGet]
  clear h l v
  intro rest
  induction rest with
  | nil => intro done g0 f _ hacc h; cases h; simpa using hacc
  | cons c rest ih =>
    intro done g0 f hT hacc h l v
    obtain ⟨l0, w⟩ := c
    simp only [runDisjunct] at h
    split at h
    · rename_i g1 h1
      obtain ⟨f1, hT1, hs⟩ := hT.disjunct l0 w h1
      have := ih (done ++ [(l0, w)]) g1 f1 hT1 ?_ h l v
      · simpa using this
      · intro l v
        rw [hs]
        simp only [hacc, List.mem_append, List.mem_singleton, Prod.mk.injEq]
        by_cases e : l = l0
        · subst e
          -- the smallest old weight, if there is an old one
          have hmin := exists_smallest l done
          constructor
          · rintro (⟨h, _⟩ | ⟨_, ⟨rfl, h⟩ | ⟨⟨h, h'⟩, hle⟩⟩)
            · exact absurd rfl h
            · refine ⟨.inr ⟨rfl, rfl⟩, ?_⟩
              rintro u (hu | ⟨_, rfl⟩)
              · obtain ⟨m, hm, hmm⟩ := hmin ⟨u, hu⟩
                have := h m ⟨hm, hmm⟩
                have := hmm u hu
                omega
              · omega
            · refine ⟨.inl h, ?_⟩
              rintro u (hu | ⟨_, rfl⟩)
              · exact h' u hu
              · exact hle
          · rintro ⟨hm, hall⟩
            right
            refine ⟨rfl, ?_⟩
            have hle : v ≤ w := hall w (.inr ⟨rfl, rfl⟩)
            rcases hm with hm | ⟨_, rfl⟩
            · exact .inr ⟨⟨hm, fun u hu => hall u (.inl hu)⟩, hle⟩
            · left
              exact ⟨rfl, fun u hu => hall u (.inl hu.1)⟩
        · simp [e]
    · rename_i hn; exact absurd h (hn g)

/-- A case: the second call shares a prefix, the third repeats the first sequence with a smaller weight. -/
example : runDisjunct Graph.init [([(sa, sa), (sb, sb)], 5), ([(sa, sa)], 1), ([(sa, sa), (sb, sb)], 2)] =
    .ok ⟨[[⟨1, sa, sa, 0⟩], [⟨2, sb, sb, 0⟩], []], [(2, 2), (1, 1)], [sb, sa, epsilon, unknown, identity]⟩ := by decide

end Hfst.Basic
