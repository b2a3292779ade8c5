import Verif.Props.GraphOps
import Mathlib.Data.List.Forall2
import Mathlib.Tactic.Push

/-!
# C19 (symbol substitution), C21 (completion), C22 (free insertion)
-/
namespace Hfst.Basic
open Graph

/-- If the transitions of `g'` are those of `g` with labels changed according to `R`, so are the paths. -/
theorem relabel_path {g g' : Graph} {R : Sym × Sym → Sym × Sym → Prop}
    (H : ∀ s a', a' ∈ g'.arcs s ↔ ∃ a ∈ g.arcs s, a'.target = a.target ∧ a'.weight = a.weight ∧ R a.label a'.label)
    (s : Nat) (l' : List (Sym × Sym)) (w : Int) (q : Nat) :
    Path g' s l' w q ↔ ∃ l, Path g s l w q ∧ List.Forall₂ R l l' := by
  constructor
  · intro h
    induction h with
    | nil s => exact ⟨[], .nil s, .nil⟩
    | @cons s q a' l' w ha _ ih =>
      obtain ⟨a, ha, ht, hw, hr⟩ := (H s a').mp ha
      obtain ⟨l, hl, hf⟩ := ih
      refine ⟨a.label :: l, ?_, .cons hr hf⟩
      rw [hw]
      exact .cons ha (ht ▸ hl)
  · rintro ⟨l, h, hf⟩
    induction h generalizing l' with
    | nil s => cases hf; exact .nil s
    | @cons s q a l w ha _ ih =>
      cases hf with
      | @cons _ p _ l' hr hf =>
        have := (H s { a with inp := p.1, out := p.2 }).mpr ⟨a, ha, rfl, rfl, hr⟩
        exact Path.cons this (ih l' hf)

/-- The same for acceptance. -/
theorem relabel_accepts {g g' : Graph} {R : Sym × Sym → Sym × Sym → Prop}
    (H : ∀ s a', a' ∈ g'.arcs s ↔ ∃ a ∈ g.arcs s, a'.target = a.target ∧ a'.weight = a.weight ∧ R a.label a'.label)
    (hf : ∀ s, g'.final s = g.final s) (l' : List (Sym × Sym)) (w : Int) :
    Accepts g' l' w ↔ ∃ l, Accepts g l w ∧ List.Forall₂ R l l' := by
  simp only [Accepts, relabel_path H, hf]
  constructor
  · rintro ⟨q, v, f, ⟨l, h1, h2⟩, h3, h4⟩
    exact ⟨l, ⟨q, v, f, h1, h3, h4⟩, h2⟩
  · rintro ⟨l, ⟨q, v, f, h1, h3, h4⟩, h2⟩
    exact ⟨q, v, f, ⟨l, h1, h2⟩, h3, h4⟩

theorem forall₂_map {α β : Type} (f : α → β) (l : List α) (l' : List β) :
    List.Forall₂ (fun a b => b = f a) l l' ↔ l' = l.map f := by
  induction l generalizing l' with
  | nil => cases l' <;> simp
  | cons a l ih => cases l' <;> simp [ih]

/-! ## C19 -/

/-- Renaming one symbol in a pair, on the chosen sides. -/
def renamePair (old new : Sym) (inSide outSide : Bool) (p : Sym × Sym) : Sym × Sym :=
  (if inSide then (if p.1 = old then new else p.1) else p.1,
   if outSide then (if p.2 = old then new else p.2) else p.2)

/-- C19: after substituting `new` for `old` on the chosen sides, the accepted weighted sequences are exactly the old
ones with the symbol renamed. -/
theorem C19_substitute (g g' : Graph) (hg : AlphaOK g) (old new : Sym) (i o : Bool)
    (h : g.substitute old new i o = .ok g') (l' : List (Sym × Sym)) (w : Int) :
    Accepts g' l' w ↔ ∃ l, Accepts g l w ∧ l' = l.map (renamePair old new i o) := by
  have main : ∀ g' : Graph, (∀ s, g'.arcs s = (g.arcs s).map (substArc old new i o)) →
      (∀ s, g'.final s = g.final s) →
      (Accepts g' l' w ↔ ∃ l, Accepts g l w ∧ l' = l.map (renamePair old new i o)) := by
    intro g' ha hf
    rw [relabel_accepts (R := fun p p' => p' = renamePair old new i o p) ?_ hf]
    · simp only [forall₂_map]
    · intro s a'
      rw [ha, List.mem_map]
      constructor
      · rintro ⟨a, ha, rfl⟩
        exact ⟨a, ha, rfl, rfl, by
          by_cases e1 : a.inp = old <;> by_cases e2 : a.out = old <;> cases i <;> cases o <;>
            simp [substArc, renamePair, Arc.label, e1, e2]⟩
      · rintro ⟨a, ha, ht, hw, hr⟩
        refine ⟨a, ha, ?_⟩
        obtain ⟨t, x, y, w⟩ := a'
        simp only [Arc.label, renamePair, Prod.mk.injEq] at hr ht hw
        by_cases e1 : a.inp = old <;> by_cases e2 : a.out = old <;> cases i <;> cases o <;>
          simp [substArc, ht, hw, hr.1, hr.2, e1, e2]
  have same : (∀ s, ∀ a ∈ g.arcs s, substArc old new i o a = a) → ∀ s, g.arcs s = (g.arcs s).map (substArc old new i o) := by
    intro H s
    exact (List.map_id (g.arcs s)).symm.trans (List.map_congr_left fun a ha => (H s a ha).symm)
  unfold Graph.substitute at h
  split at h
  · cases h
  · split at h
    · rename_i e
      cases h
      refine main g (same ?_) (fun _ => rfl)
      intro s a _
      obtain ⟨t, x, y, w⟩ := a
      subst e
      simp only [substArc, Arc.mk.injEq, true_and, and_true]
      constructor <;> (split <;> simp_all)
    · split at h
      · rename_i hold
        cases h
        refine main g (same ?_) (fun _ => rfl)
        intro s a ha
        have h1 : a.inp ≠ old := fun e => hold (e ▸ (hg.arcs s a ha).1)
        have h2 : a.out ≠ old := fun e => hold (e ▸ (hg.arcs s a ha).2)
        simp [substArc, h1, h2]
      · cases h
        refine main _ (fun s => ?_) (fun _ => rfl)
        rw [arcs_map g _ (by simp)]

/-- A case: `a` becomes `b` on the output side only, along a loop. -/
example : (⟨[[⟨0, sa, sa, 1⟩, ⟨0, sb, sa, 0⟩]], [(0, 0)], [epsilon, unknown, identity, sa, sb]⟩ : Graph).substitute
      sa sc false true =
    .ok ⟨[[⟨0, sa, sc, 1⟩, ⟨0, sb, sc, 0⟩]], [(0, 0)], [sc, epsilon, unknown, identity, sa, sb]⟩ := by decide

theorem mapGet_eq_lookup {α β : Type} [DecidableEq α] [BEq α] [LawfulBEq α] (m : List (α × β)) (k : α) : mapGet m k = m.lookup k := by
  induction m with
  | nil => rfl
  | cons e m ih =>
    obtain ⟨k', v⟩ := e
    simp only [mapGet, List.find?_cons, List.lookup_cons] at ih ⊢
    by_cases h : k' = k
    · subst h; simp
    · have h' : (k == k') = false := by simp; exact fun e => h e.symm
      simp [h, h', ih]

/-- C19 for a set of simultaneous symbol substitutions: every symbol is looked up once. -/
theorem C19_substituteMap (g g' : Graph) (m : List (Sym × Sym)) (h : g.substituteMap m = .ok g')
    (l' : List (Sym × Sym)) (w : Int) :
    Accepts g' l' w ↔
      ∃ l, Accepts g l w ∧ l' = l.map fun p => ((m.lookup p.1).getD p.1, (m.lookup p.2).getD p.2) := by
  unfold Graph.substituteMap at h
  split at h
  · cases h
  · cases h
    rw [relabel_accepts (g := g)
      (R := fun p p' => p' = ((m.lookup p.1).getD p.1, (m.lookup p.2).getD p.2)) ?_ ?_]
    rotate_right
    · exact fun _ => rfl
    · simp only [forall₂_map]
    · intro s a'
      rw [arcs_map g _ (by simp), List.mem_map]
      constructor
      · rintro ⟨a, ha, rfl⟩
        exact ⟨a, ha, rfl, rfl, by simp [substArcMap, Arc.label, mapGet_eq_lookup]⟩
      · rintro ⟨a, ha, ht, hw, hr⟩
        refine ⟨a, ha, ?_⟩
        obtain ⟨t, x, y, w⟩ := a'
        simp only [Arc.label, Prod.mk.injEq] at hr ht hw
        simp [substArcMap, ht, hw, hr.1, hr.2, mapGet_eq_lookup]

/-- `a` and `b` are exchanged. -/
example : (⟨[[⟨0, sa, sb, 1⟩]], [(0, 0)], [sa, sb]⟩ : Graph).substituteMap [(sa, sb), (sb, sa)] =
    .ok ⟨[[⟨0, sb, sa, 1⟩]], [(0, 0)], [sa, sb]⟩ := by decide

/-- C19 for simultaneous substitutions of pairs by pairs. -/
theorem C19_substitutePairMap (g g' : Graph) (m : List ((Sym × Sym) × (Sym × Sym)))
    (h : g.substitutePairMap m = .ok g') (l' : List (Sym × Sym)) (w : Int) :
    Accepts g' l' w ↔ ∃ l, Accepts g l w ∧ l' = l.map fun p => (m.lookup p).getD p := by
  unfold Graph.substitutePairMap at h
  split at h
  · cases h
  · cases h
    rw [relabel_accepts (g := g) (R := fun p p' => p' = (m.lookup p).getD p) ?_ ?_]
    rotate_right
    · exact fun _ => rfl
    · simp only [forall₂_map]
    · intro s a'
      rw [arcs_map g _ (by simp), List.mem_map]
      constructor
      · rintro ⟨a, ha, rfl⟩
        refine ⟨a, ha, ?_⟩
        unfold substArcPairMap
        rw [mapGet_eq_lookup]
        cases hm : m.lookup a.label <;> simp [Arc.label]
      · rintro ⟨a, ha, ht, hw, hr⟩
        refine ⟨a, ha, ?_⟩
        obtain ⟨t, x, y, w⟩ := a'
        simp only at ht hw
        unfold substArcPairMap
        rw [mapGet_eq_lookup]
        cases hm : m.lookup a.label with
        | none => rw [hm] at hr; simp [Arc.label] at hr; simp [ht, hw, hr.1, hr.2]
        | some p =>
          rw [hm] at hr; simp only [Arc.label, Option.getD_some] at hr; subst hr; simp [ht, hw]

example : (⟨[[⟨0, sa, sb, 1⟩, ⟨0, sa, sa, 1⟩]], [(0, 0)], [sa, sb]⟩ : Graph).substitutePairMap [((sa, sb), (sc, sa))] =
    .ok ⟨[[⟨0, sc, sa, 1⟩, ⟨0, sa, sa, 1⟩]], [(0, 0)], [sc, sa, sb]⟩ := by decide

/-- C19 for a pair replaced by any pair of a set: every occurrence is replaced independently. -/
theorem C19_substitutePairSet (g g' : Graph) (old : Sym × Sym) (new : List (Sym × Sym)) (hne : new ≠ [])
    (h : g.substitutePairSet old new = .ok g') (l' : List (Sym × Sym)) (w : Int) :
    Accepts g' l' w ↔
      ∃ l, Accepts g l w ∧ List.Forall₂ (fun p p' => if p = old then p' ∈ new else p' = p) l l' := by
  have main : ∀ (first : Sym × Sym) (rest : List (Sym × Sym)) (g' : Graph),
      (∀ s, g'.arcs s = substPairSetArcs old first (first :: rest) (g.arcs s)) →
      (∀ s, g'.final s = g.final s) → (Accepts g' l' w ↔
      ∃ l, Accepts g l w ∧ List.Forall₂ (fun p p' => if p = old then p' ∈ first :: rest else p' = p) l l') := by
    intro first rest g' ha hf
    refine relabel_accepts ?_ hf l' w
    intro s a'
    rw [ha, substPairSetArcs, List.mem_append, List.mem_map, List.mem_flatMap]
    constructor
    · rintro (⟨a, ha, rfl⟩ | ⟨a, ha, hb⟩)
      · refine ⟨a, ha, ?_⟩
        split
        · simp [Arc.label]
        · simp
      · refine ⟨a, ha, ?_⟩
        split at hb
        · rename_i hl
          obtain ⟨p, hp, rfl⟩ := List.mem_map.mp hb
          refine ⟨rfl, rfl, ?_⟩
          rw [if_pos hl]; exact hp
        · simp at hb
    · rintro ⟨a, ha, ht, hw, hr⟩
      obtain ⟨t, x, y, v⟩ := a'
      simp only at ht hw
      by_cases hl : a.label = old
      · right
        refine ⟨a, ha, ?_⟩
        rw [if_pos hl] at hr ⊢
        exact List.mem_map.mpr ⟨(x, y), hr, by simp [ht, hw]⟩
      · left
        refine ⟨a, ha, ?_⟩
        rw [if_neg hl] at hr ⊢
        simp only [Arc.label, Prod.mk.injEq] at hr
        simp [ht, hw, hr.1, hr.2]
  unfold Graph.substitutePairSet at h
  split at h
  · cases h
  · split at h
    · cases h
    · split at h
      · exact absurd rfl hne
      · rename_i first rest _
        cases h
        have hs : ∀ (k : Graph) (xs : List Sym), (k.pruneAfterSubstitution xs).states = k.states ∧
            (k.pruneAfterSubstitution xs).finals = k.finals := by
          intro k xs; unfold Graph.pruneAfterSubstitution; split <;> exact ⟨rfl, rfl⟩
        refine main first rest _ (fun s => ?_) (fun s => ?_)
        · simp only [Graph.arcs, hs]
          split <;> exact arcs_map g _ (by simp [substPairSetArcs]) s g.alphabet
        · simp only [Graph.final, hs]
          split <;> rfl

/-- `a:b` becomes `c:c` or `b:b` (the code leaves the first one twice). -/
example : (⟨[[⟨0, sa, sb, 1⟩, ⟨0, sa, sa, 1⟩]], [(0, 0)], [sa, sb]⟩ : Graph).substitutePairSet (sa, sb)
      [(sb, sb), (sc, sc)] =
    .ok ⟨[[⟨0, sb, sb, 1⟩, ⟨0, sa, sa, 1⟩, ⟨0, sb, sb, 1⟩, ⟨0, sc, sc, 1⟩]], [(0, 0)], [sc, sa, sb]⟩ := by decide

/-- C19 for substitution by a function: a pair for which the function answers with a set is replaced by any member. -/
theorem C19_substituteFunc (g g' : Graph) (f : Sym × Sym → Option (List (Sym × Sym)))
    (h : g.substituteFunc f = .ok g') (l' : List (Sym × Sym)) (w : Int) :
    Accepts g' l' w ↔ ∃ l, Accepts g l w ∧ List.Forall₂ (fun p p' => p' ∈ (f p).getD [p]) l l' := by
  unfold Graph.substituteFunc at h
  simp only [] at h
  split at h
  · cases h
  · rename_i hne
    split at h
    · cases h
    · cases h
      have hne' : ∀ s, ∀ a ∈ g.arcs s, f a.label ≠ some [] := by
        intro s a ha e
        apply hne
        exact List.any_eq_true.mpr ⟨a, (mem_flatten_states g a).mpr ⟨s, ha⟩, by simp [e]⟩
      refine relabel_accepts ?_ ?_ l' w
      rotate_right
      · exact fun _ => rfl
      intro s a'
      rw [arcs_map g _ (by simp [substFuncArcs]), substFuncArcs, List.mem_append, List.mem_map, List.mem_flatMap]
      constructor
      · rintro (⟨a, ha, rfl⟩ | ⟨a, ha, hb⟩)
        · refine ⟨a, ha, ?_⟩
          split
          · rename_i p ps hp
            refine ⟨rfl, rfl, ?_⟩
            rw [hp]; simp [Arc.label]
          · rename_i hp
            cases hq : f a.label with
            | none => simp
            | some ps =>
              cases ps with
              | nil => exact absurd hq (hne' s a ha)
              | cons p ps => exact absurd hq (hp p ps)
        · refine ⟨a, ha, ?_⟩
          split at hb
          · rename_i ps hp
            obtain ⟨p, hp', rfl⟩ := List.mem_map.mp hb
            refine ⟨rfl, rfl, ?_⟩
            rw [hp]; exact hp'
          · simp at hb
      · rintro ⟨a, ha, ht, hw, hr⟩
        obtain ⟨t, x, y, v⟩ := a'
        simp only at ht hw
        cases hq : f a.label with
        | none =>
          left
          refine ⟨a, ha, ?_⟩
          simp only [hq]
          rw [hq] at hr
          simp [Arc.label] at hr
          simp [ht, hw, hr.1, hr.2]
        | some ps =>
          right
          refine ⟨a, ha, ?_⟩
          simp only [hq]
          simp only [hq, Option.getD_some] at hr
          exact List.mem_map.mpr ⟨(x, y), hr, by simp [ht, hw]⟩

example : (⟨[[⟨0, sa, sb, 1⟩]], [(0, 0)], [sa, sb]⟩ : Graph).substituteFunc
      (fun p => if p.1 = sa then some [(p.2, sa)] else none) =
    .ok ⟨[[⟨0, sb, sa, 1⟩, ⟨0, sb, sa, 1⟩]], [(0, 0)], [sa, sb]⟩ := by decide

/-! ## C21 -/

/-- C21: completion refuses transducers that map a symbol to a different one, and nothing else. -/
theorem C21_refuses (g : Graph) :
    (∃ s a, a ∈ g.arcs s ∧ a.inp ≠ a.out) ↔ g.complete = .throws := by
  have key : (g.addState.1.states.any fun l => l.any fun a => a.inp ≠ a.out) = true ↔
      ∃ s a, a ∈ g.arcs s ∧ a.inp ≠ a.out := by
    simp only [List.any_eq_true, decide_eq_true_eq]
    constructor
    · rintro ⟨l, hl, a, ha, hn⟩
      have := (mem_flatten_states g.addState.1 a).mp (List.mem_flatten.mpr ⟨l, hl, ha⟩)
      obtain ⟨s, hs⟩ := this
      rw [arcs_addState] at hs
      exact ⟨s, a, hs, hn⟩
    · rintro ⟨s, a, ha, hn⟩
      rw [← arcs_addState] at ha
      obtain ⟨l, hl, ha⟩ := List.mem_flatten.mp ((mem_flatten_states g.addState.1 a).mpr ⟨s, ha⟩)
      exact ⟨l, hl, a, ha, hn⟩
  rw [← key]
  unfold Graph.complete
  simp only []
  split
  · rename_i hc
    exact ⟨fun _ => rfl, fun _ => hc⟩
  · rename_i hc
    exact ⟨fun h => absurd h hc, fun h => by cases h⟩

theorem complete_arcs {g g' : Graph} (h : g.complete = .ok g') (s : Nat) :
    g'.arcs s = (if s ≤ g.states.length then completeArcs g.alphabet g.states.length (g.arcs s) else []) ∧
    g'.final s = g.final s ∧ g'.states.length = g.states.length + 1 := by
  unfold Graph.complete at h
  simp only [] at h
  split at h
  · cases h
  · cases h
    refine ⟨?_, rfl, by simp [Graph.addState]⟩
    split
    · rename_i hs
      have hs' : s < g.addState.1.states.length := by simp [Graph.addState]; omega
      have := arcs_addState g s
      simp only [Graph.arcs, List.getElem?_map, List.getElem?_eq_getElem hs'] at this ⊢
      simp only [Option.map_some, Option.getD_some] at this ⊢
      rw [this]; rfl
    · rename_i hs
      apply arcs_eq_nil
      simp [Graph.addState]; omega

/-- C21: in the completed automaton every state, also the new one, has a transition for every symbol of the alphabet
that does not begin with `@_`. -/
theorem C21_total (g g' : Graph) (h : g.complete = .ok g') (s : Nat) (hs : s < g'.states.length) (x : Sym)
    (hx : x ∈ g.alphabet) (hsp : ¬ ['@', '_'] <+: x) : ∃ a ∈ g'.arcs s, a.inp = x ∧ a.out = x := by
  obtain ⟨ha, _, hl⟩ := complete_arcs h s
  rw [ha, if_pos (by omega)]
  have hd : ∀ t, ∀ a ∈ g.arcs t, a.inp = a.out := by
    intro t a hta
    by_contra hne
    have := (C21_refuses g).mp ⟨t, a, hta, hne⟩
    rw [h] at this; cases this
  unfold completeArcs
  by_cases hm : x ∈ (g.arcs s).map (·.inp)
  · obtain ⟨a, ha, rfl⟩ := List.mem_map.mp hm
    exact ⟨a, List.mem_append.mpr (.inl ha), rfl, (hd s a ha).symm⟩
  · refine ⟨⟨g.states.length, x, x, 0⟩, List.mem_append.mpr (.inr (List.mem_map.mpr ⟨x, ?_, rfl⟩)), rfl, rfl⟩
    rw [List.mem_filter]
    refine ⟨hx, ?_⟩
    have : isSpecialSymbol x = false := by
      clear hm hx
      unfold isSpecialSymbol
      match x, hsp with
      | [], _ => rfl
      | [_], _ => rfl
      | c :: d :: r, hsp =>
        simp only [List.length_cons]
        rw [if_neg (by omega)]
        by_contra hc
        apply hsp
        simp at hc
        simp [hc.1, hc.2]
    simp [hm, this]

/-- C21: completion leaves the choices of a state alone: for a symbol that already has a transition in a state, the
transitions for it are the old ones (so a deterministic automaton stays deterministic). -/
theorem C21_keeps (g g' : Graph) (h : g.complete = .ok g') (s : Nat) (x : Sym) (hx : ∃ a ∈ g.arcs s, a.inp = x) :
    (g'.arcs s).filter (fun a => a.inp = x) = (g.arcs s).filter (fun a => a.inp = x) := by
  obtain ⟨a, ha, hax⟩ := hx
  rw [(complete_arcs h s).1, if_pos (Nat.le_of_lt (lt_of_mem_arcs ha))]
  unfold completeArcs
  rw [List.filter_append]
  suffices hnil : ((g.alphabet.filter fun x => x ∉ (g.arcs s).map (·.inp) && !isSpecialSymbol x).map fun x =>
      ({ target := g.states.length, inp := x, out := x, weight := 0 } : Arc)).filter (fun a => a.inp = x) = [] by
    rw [hnil, List.append_nil]
  rw [List.filter_eq_nil_iff]
  intro b hb
  obtain ⟨y, hy, rfl⟩ := List.mem_map.mp hb
  have hy := (List.mem_filter.mp hy).2
  simp only [Bool.and_eq_true, decide_eq_true_eq] at hy
  simp only [decide_eq_true_eq]
  rintro rfl
  exact hy.1 (List.mem_map.mpr ⟨a, ha, hax⟩)

/-- C21: completion does not change which weighted sequences are accepted. -/
theorem C21_language (g g' : Graph) (hg : WF g) (h : g.complete = .ok g') (l : List (Sym × Sym)) (w : Int) :
    Accepts g' l w ↔ Accepts g l w := by
  have up : ∀ {s l w q}, Path g s l w q → Path g' s l w q := by
    intro s l w q hp
    induction hp with
    | nil s => exact .nil s
    | cons ha _ ih =>
      refine .cons ?_ ih
      rw [(complete_arcs h _).1, if_pos (Nat.le_of_lt (lt_of_mem_arcs ha))]
      exact List.mem_append.mpr (.inl ha)
  have down : ∀ {s l w q}, Path g' s l w q → q < g.states.length → Path g s l w q := by
    intro s l w q hp hq
    induction hp with
    | nil s => exact .nil s
    | @cons s q a l w ha hp ih =>
      have ih := ih hq
      rw [(complete_arcs h _).1] at ha
      split at ha
      · simp only [completeArcs, List.mem_append, List.mem_map] at ha
        rcases ha with ha | ⟨x, hx, rfl⟩
        · exact .cons ha ih
        · exfalso
          have hp' : Path g g.states.length l w q := ih
          cases hp' with
          | nil => omega
          | cons hb _ => have := lt_of_mem_arcs hb; omega
      · simp at ha
  constructor
  · rintro ⟨q, v, f, hp, hf, rfl⟩
    rw [(complete_arcs h q).2.1] at hf
    exact ⟨q, v, f, down hp (hg.finals q f hf), hf, rfl⟩
  · rintro ⟨q, v, f, hp, hf, rfl⟩
    exact ⟨q, v, f, up hp, by rw [(complete_arcs h q).2.1]; exact hf, rfl⟩

example : (⟨[[⟨0, sa, sa, 1⟩]], [(0, 0)], [epsilon, sa, sb]⟩ : Graph).complete =
    .ok ⟨[[⟨0, sa, sa, 1⟩, ⟨1, sb, sb, 0⟩], [⟨1, sa, sa, 0⟩, ⟨1, sb, sb, 0⟩]], [(0, 0)], [epsilon, sa, sb]⟩ := by decide

/-! ## C22 -/

/-- `Inserted ps l l' k`: the sequence `l'` is `l` with `k` pairs out of `ps` put in anywhere. -/
inductive Inserted (ps : List (Sym × Sym)) : List (Sym × Sym) → List (Sym × Sym) → Nat → Prop
  | nil : Inserted ps [] [] 0
  | keep {l l' : List (Sym × Sym)} {k : Nat} (p : Sym × Sym) : Inserted ps l l' k → Inserted ps (p :: l) (p :: l') k
  | ins {l l' : List (Sym × Sym)} {k : Nat} {p : Sym × Sym} : p ∈ ps → Inserted ps l l' k →
      Inserted ps l (p :: l') (k + 1)

theorem insertFreely_arcs {g g' : Graph} {ps : List (Sym × Sym)} {wt : Int} (h : g.insertFreely ps wt = .ok g')
    (s : Nat) : g'.arcs s = (if s < g.states.length then
        g.arcs s ++ ps.map fun p => { target := s, inp := p.1, out := p.2, weight := wt } else []) ∧
      g'.final s = g.final s ∧ g'.states.length = g.states.length := by
  unfold Graph.insertFreely at h
  split at h
  · cases h
  · cases h
    refine ⟨?_, rfl, by simp [Graph.addSymbolPairs]⟩
    split
    · rename_i hs
      simp [Graph.arcs, addSymbolPairs, List.getElem?_zipIdx, List.getElem?_eq_getElem hs]
    · rename_i hs
      apply arcs_eq_nil
      simpa [Graph.addSymbolPairs] using hs

/-- C22: after inserting pairs freely, a sequence is accepted exactly when it is an accepted sequence with some of the
pairs put in, each adding the given weight. -/
theorem C22_insertFreely (g g' : Graph) (hg : WF g) (ps : List (Sym × Sym)) (wt : Int)
    (h : g.insertFreely ps wt = .ok g') (l' : List (Sym × Sym)) (w' : Int) :
    Accepts g' l' w' ↔ ∃ l w k, Accepts g l w ∧ Inserted ps l l' k ∧ w' = w + k * wt := by
  have down : ∀ {s l' w' q}, Path g' s l' w' q → ∃ l w k, Path g s l w q ∧ Inserted ps l l' k ∧ w' = w + k * wt := by
    intro s l' w' q hp
    induction hp with
    | nil s => exact ⟨[], 0, 0, .nil s, .nil, by simp⟩
    | @cons s q a l' w' ha _ ih =>
      obtain ⟨l, w, k, hp, hi, rfl⟩ := ih
      rw [(insertFreely_arcs h s).1] at ha
      split at ha
      · rcases List.mem_append.mp ha with ha | ha
        · exact ⟨_, _, k, .cons ha hp, .keep _ hi, by omega⟩
        · obtain ⟨p, hp', rfl⟩ := List.mem_map.mp ha
          exact ⟨l, w, k + 1, hp, .ins hp' hi, by push_cast; rw [Int.add_mul]; omega⟩
      · simp at ha
  have up : ∀ {s l l' w q} {k : Nat}, s < g.states.length → Path g s l w q → Inserted ps l l' k →
      Path g' s l' (w + k * wt) q := by
    intro s l l' w q k hs hp hi
    induction hi generalizing s w with
    | nil => cases hp; simpa using Path.nil _
    | keep p _ ih =>
      cases hp with
      | cons ha hp =>
        have := ih (hg.targets _ _ ha) hp
        rw [Int.add_assoc]
        refine .cons ?_ this
        rw [(insertFreely_arcs h s).1, if_pos hs]
        exact List.mem_append.mpr (.inl ha)
    | @ins l l' k p hp' _ ih =>
      have := ih hs hp
      have e : w + ((k + 1 : Nat) : Int) * wt = wt + (w + k * wt) := by push_cast; rw [Int.add_mul]; omega
      rw [e]
      refine Path.cons (a := ⟨s, p.1, p.2, wt⟩) ?_ this
      rw [(insertFreely_arcs h s).1, if_pos hs]
      exact List.mem_append.mpr (.inr (List.mem_map.mpr ⟨p, hp', rfl⟩))
  constructor
  · rintro ⟨q, v, f, hp, hf, rfl⟩
    obtain ⟨l, w, k, hp', hi, rfl⟩ := down hp
    rw [(insertFreely_arcs h q).2.1] at hf
    exact ⟨l, w + f, k, ⟨q, w, f, hp', hf, rfl⟩, hi, by omega⟩
  · rintro ⟨l, w, k, ⟨q, v, f, hp, hf, rfl⟩, hi, rfl⟩
    refine ⟨q, v + k * wt, f, up hg.nonempty hp hi, ?_, by omega⟩
    rw [(insertFreely_arcs h q).2.1]; exact hf

example : (⟨[[⟨1, sa, sa, 1⟩], []], [(1, 0)], [sa]⟩ : Graph).insertFreely [(sb, sc)] 2 =
    .ok ⟨[[⟨1, sa, sa, 1⟩, ⟨0, sb, sc, 2⟩], [⟨1, sb, sc, 2⟩]], [(1, 0)], [sc, sb, sa]⟩ := by decide

end Hfst.Basic
