import Verif.Spec.Transducer
import Verif.Props.LexcBackend
import Verif.Props.TransducerMeans
import Verif.Props.TransducerCompose
import Mathlib.Data.List.ProdSigma
import Mathlib.Data.List.NodupEquivFin
import Mathlib.Data.List.Sublists

/-!
# C72-C75: the assumptions about the back-end can be met

`reference` is a back-end on graphs; `reference_ok` shows that it satisfies everything that the theorems about transducers ask
of a back-end.  It models no code of the repository.
-/
namespace Hfst.Trans
open Hfst.Basic Hfst.Lexc

/-! ## Graphs from automata over any states -/

section
variable {σ : Type} [DecidableEq σ]

/-- A transition of an automaton (no code of the repository). -/
structure Move (σ : Type) where
  target : σ
  label : Sym × Sym
  weight : Int

/-- Runs of an automaton. -/
inductive Run (moves : σ → List (Move σ)) : σ → List (Sym × Sym) → Int → σ → Prop
  | nil (s : σ) : Run moves s [] 0 s
  | cons {s q : σ} {m : Move σ} {l : List (Sym × Sym)} {w : Int} : m ∈ moves s → Run moves m.target l w q →
      Run moves s (m.label :: l) (m.weight + w) q

/-- The number of a state; 0 is a new initial state (no code of the repository). -/
def code (univ : List σ) (s : σ) : Nat := univ.idxOf s + 1

/-- The graph of an automaton with the states `univ` (no code of the repository). -/
def build (univ : List σ) (start : σ) (moves : σ → List (Move σ)) (fin : σ → Option Int) (al : List Sym) : Graph :=
  { states := [⟨code univ start, epsilon, epsilon, 0⟩] ::
      univ.map fun s => (moves s).map fun m => ⟨code univ m.target, m.label.1, m.label.2, m.weight⟩
    finals := univ.filterMap fun s => (fin s).map fun f => (code univ s, f)
    alphabet := al }

variable {univ : List σ} {start : σ} {moves : σ → List (Move σ)} {fin : σ → Option Int} {al : List Sym}

theorem build_arcs_zero : (build univ start moves fin al).arcs 0 = [⟨code univ start, epsilon, epsilon, 0⟩] := rfl

theorem build_arcs {s : σ} (hs : s ∈ univ) : (build univ start moves fin al).arcs (code univ s) =
    (moves s).map fun m => ⟨code univ m.target, m.label.1, m.label.2, m.weight⟩ := by
  unfold Graph.arcs build code
  simp only [List.getElem?_cons_succ, List.getElem?_map]
  rw [List.getElem?_eq_getElem (List.idxOf_lt_length_of_mem hs), List.getElem_idxOf]
  rfl

theorem build_arcs_cases {k : Nat} {a : Arc} (ha : a ∈ (build univ start moves fin al).arcs k) :
    (k = 0 ∧ a = ⟨code univ start, epsilon, epsilon, 0⟩) ∨
      ∃ s ∈ univ, ∃ m ∈ moves s, a = ⟨code univ m.target, m.label.1, m.label.2, m.weight⟩ := by
  match k with
  | 0 =>
    rw [build_arcs_zero, List.mem_singleton] at ha
    exact .inl ⟨rfl, ha⟩
  | k + 1 =>
    right
    unfold Graph.arcs build at ha
    simp only [List.getElem?_cons_succ, List.getElem?_map] at ha
    cases hs : univ[k]? with
    | none => rw [hs] at ha; exact absurd ha (by simp)
    | some s =>
      rw [hs] at ha
      obtain ⟨m, hm, rfl⟩ := List.mem_map.mp ha
      exact ⟨s, List.mem_of_getElem? hs, m, hm, rfl⟩

theorem code_inj {s t : σ} (hs : s ∈ univ) (h : code univ s = code univ t) : s = t :=
  (List.idxOf_inj hs).mp (by unfold code at h; omega)

theorem code_le {s : σ} (hs : s ∈ univ) : code univ s < (build univ start moves fin al).states.length := by
  have := List.idxOf_lt_length_of_mem hs
  simp only [build, List.length_cons, List.length_map, code]
  omega

theorem build_finalMap (hu : univ.Nodup) : FinalMap (build univ start moves fin al) := by
  unfold FinalMap
  have : ((build univ start moves fin al).finals.map (·.1)) = (univ.filter fun s => (fin s).isSome).map (code univ) := by
    unfold build
    dsimp only
    generalize code univ = c
    clear hu
    induction univ with
    | nil => rfl
    | cons s l ih =>
      cases h : fin s with
      | none => simp [h, ih]
      | some f => simp [h, ih]
  rw [this]
  refine (hu.filter _).map_on ?_
  intro s hs t _ h
  exact code_inj (List.mem_filter.mp hs).1 h

theorem build_final (hu : univ.Nodup) (k : Nat) (w : Int) : (build univ start moves fin al).final k = some w ↔
    ∃ s ∈ univ, k = code univ s ∧ fin s = some w := by
  rw [(build_finalMap hu).iff]
  unfold build
  simp only [List.mem_filterMap, Option.map_eq_some_iff, Prod.mk.injEq]
  constructor
  · rintro ⟨s, hs, f, hf, rfl, rfl⟩; exact ⟨s, hs, rfl, hf⟩
  · rintro ⟨s, hs, rfl, hf⟩; exact ⟨s, hs, w, hf, rfl, rfl⟩

/-- The states are closed under the transitions. -/
structure Machine (univ : List σ) (start : σ) (moves : σ → List (Move σ)) : Prop where
  nodup : univ.Nodup
  start : start ∈ univ
  closed : ∀ s ∈ univ, ∀ m ∈ moves s, m.target ∈ univ

omit [DecidableEq σ] in
theorem Run.closed (h : Machine univ start moves) {s q : σ} {l : List (Sym × Sym)} {w : Int} (hs : s ∈ univ)
    (hr : Run moves s l w q) : q ∈ univ := by
  induction hr with
  | nil => exact hs
  | cons hm _ ih => exact ih (h.closed _ hs _ hm)

theorem build_path (h : Machine univ start moves) {s : σ} (hs : s ∈ univ) {l : List (Sym × Sym)} {w : Int} {k : Nat} :
    Path (build univ start moves fin al) (code univ s) l w k ↔ ∃ q ∈ univ, k = code univ q ∧ Run moves s l w q := by
  constructor
  · intro hp
    generalize hk : code univ s = k0 at hp
    induction hp generalizing s with
    | nil => exact ⟨s, hs, hk.symm, .nil s⟩
    | cons ha _ ih =>
      subst hk
      rw [build_arcs hs] at ha
      obtain ⟨m, hm, rfl⟩ := List.mem_map.mp ha
      obtain ⟨q, hq, e, hr⟩ := ih (h.closed s hs m hm) rfl
      exact ⟨q, hq, e, .cons hm hr⟩
  · rintro ⟨q, hq, rfl, hr⟩
    clear hq
    induction hr with
    | nil => exact .nil _
    | @cons s q m l w hm _ ih =>
      have := Path.cons (g := build univ start moves fin al) (s := code univ s)
        (a := ⟨code univ m.target, m.label.1, m.label.2, m.weight⟩) (by
          rw [build_arcs hs]; exact List.mem_map.mpr ⟨m, hm, rfl⟩) (ih (h.closed s hs m hm))
      exact this

theorem build_cost (h : Machine univ start moves) (l : List (Sym × Sym)) (w : Int) :
    Cost (build univ start moves fin al) l w ↔
      ∃ l' v q f, Run moves start l' v q ∧ fin q = some f ∧ strip l' = l ∧ v + f ≤ w := by
  constructor
  · rintro ⟨l', w', ⟨k, v, f, hp, hf, rfl⟩, rfl, hw⟩
    obtain ⟨q, hq, rfl, hfq⟩ := (build_final h.nodup k f).mp hf
    generalize hz : 0 = z at hp
    generalize hc : code univ q = c at hp
    cases hp with
    | nil => rw [← hz] at hc; unfold code at hc; omega
    | cons ha hp =>
      subst hz
      rw [build_arcs_zero, List.mem_singleton] at ha
      subst ha
      obtain ⟨q', hq', e, hr⟩ := (build_path h h.start).mp hp
      rw [← hc] at e
      have := code_inj hq e
      subst this
      dsimp only at hw
      exact ⟨_, _, q, f, hr, hfq, strip_cons_eps _, by omega⟩
  · rintro ⟨l', v, q, f, hr, hf, rfl, hw⟩
    have hq := hr.closed h h.start
    refine ⟨(epsilon, epsilon) :: l', 0 + v + f, ⟨code univ q, 0 + v, f, ?_, ?_, rfl⟩, strip_cons_eps l', by omega⟩
    · exact Path.cons (a := ⟨code univ start, epsilon, epsilon, 0⟩) (by rw [build_arcs_zero]; simp)
        ((build_path h h.start).mpr ⟨q, hq, rfl, hr⟩)
    · exact (build_final h.nodup _ _).mpr ⟨q, hq, rfl, hf⟩

theorem build_label {p : Sym × Sym} (hp : HasLabel (build univ start moves fin al) p) :
    (∃ s ∈ univ, ∃ m ∈ moves s, m.label = p) ∨ p = (epsilon, epsilon) := by
  obtain ⟨k, a, ha, rfl⟩ := hp
  rcases build_arcs_cases ha with ⟨_, rfl⟩ | ⟨s, hs, m, hm, rfl⟩
  · exact .inr rfl
  · exact .inl ⟨s, hs, m, hm, rfl⟩

theorem build_good (h : Machine univ start moves) (hal : epsilon ∈ al ∧ unknown ∈ al ∧ identity ∈ al)
    (hm : ∀ s ∈ univ, ∀ m ∈ moves s, m.label.1 ∈ al ∧ m.label.2 ∈ al) : Good (build univ start moves fin al) := by
  refine ⟨⟨by simp [build], ?_, ?_⟩, ⟨?_, hal.1, hal.2.1, hal.2.2⟩, build_finalMap h.nodup⟩
  · intro k a ha
    rcases build_arcs_cases ha with ⟨_, rfl⟩ | ⟨s, hs, m, hm, rfl⟩
    · exact code_le h.start
    · exact code_le (h.closed s hs m hm)
  · intro k w hw
    obtain ⟨s, hs, rfl, _⟩ := (build_final h.nodup k w).mp hw
    exact code_le hs
  · intro k a ha
    rcases build_arcs_cases ha with ⟨_, rfl⟩ | ⟨s, hs, m, hm', rfl⟩
    · exact ⟨hal.1, hal.1⟩
    · exact hm s hs m hm'

end

/-! ## Products -/

/-- How two sequences are put together: pairs of both (`J`), pairs of the first (`L`) and of the second (`R`) alone. -/
inductive Merged (J : Sym × Sym → Sym × Sym → Option (Sym × Sym)) (L R : Sym × Sym → Option (Sym × Sym)) :
    List (Sym × Sym) → List (Sym × Sym) → List (Sym × Sym) → Prop
  | nil : Merged J L R [] [] []
  | both {p q r : Sym × Sym} {a b c : List (Sym × Sym)} : J p q = some r → Merged J L R a b c →
      Merged J L R (p :: a) (q :: b) (r :: c)
  | left {p r : Sym × Sym} {a b c : List (Sym × Sym)} : L p = some r → Merged J L R a b c → Merged J L R (p :: a) b (r :: c)
  | right {q r : Sym × Sym} {a b c : List (Sym × Sym)} : R q = some r → Merged J L R a b c → Merged J L R a (q :: b) (r :: c)

section
variable (J : Sym × Sym → Sym × Sym → Option (Sym × Sym)) (L R : Sym × Sym → Option (Sym × Sym)) (g h : Graph)

/-- Transitions of the product (no code of the repository). -/
def prodMoves (s : Nat × Nat) : List (Move (Nat × Nat)) :=
  ((g.arcs s.1).flatMap fun a => (h.arcs s.2).filterMap fun b =>
    (J a.label b.label).map fun r => ⟨(a.target, b.target), r, a.weight + b.weight⟩) ++
  ((g.arcs s.1).filterMap fun a => (L a.label).map fun r => ⟨(a.target, s.2), r, a.weight⟩) ++
  ((h.arcs s.2).filterMap fun b => (R b.label).map fun r => ⟨(s.1, b.target), r, b.weight⟩)

/-- States of the product (no code of the repository). -/
def prodUniv : List (Nat × Nat) := (List.range g.states.length) ×ˢ (List.range h.states.length)

/-- Final weights of the product (no code of the repository). -/
def prodFin (s : Nat × Nat) : Option Int := (g.final s.1).bind fun a => (h.final s.2).map fun b => a + b

/-- The product (no code of the repository). -/
def prod : Graph := build (prodUniv g h) (0, 0) (prodMoves J L R g h) (prodFin g h) g.alphabet

theorem mem_prodMoves {s : Nat × Nat} {m : Move (Nat × Nat)} : m ∈ prodMoves J L R g h s ↔
    (∃ a ∈ g.arcs s.1, ∃ b ∈ h.arcs s.2, ∃ r, J a.label b.label = some r ∧ m = ⟨(a.target, b.target), r, a.weight + b.weight⟩) ∨
    (∃ a ∈ g.arcs s.1, ∃ r, L a.label = some r ∧ m = ⟨(a.target, s.2), r, a.weight⟩) ∨
    (∃ b ∈ h.arcs s.2, ∃ r, R b.label = some r ∧ m = ⟨(s.1, b.target), r, b.weight⟩) := by
  unfold prodMoves
  simp only [List.mem_append, List.mem_flatMap, List.mem_filterMap, Option.map_eq_some_iff, or_assoc, eq_comm (b := m)]

variable {g h}

theorem mem_prodUniv {s : Nat × Nat} : s ∈ prodUniv g h ↔ s.1 < g.states.length ∧ s.2 < h.states.length := by
  unfold prodUniv
  obtain ⟨a, b⟩ := s
  simp [List.mem_product]

theorem prod_machine (hg : Good g) (hh : Good h) : Machine (prodUniv g h) (0, 0) (prodMoves J L R g h) := by
  refine ⟨List.nodup_range.product List.nodup_range, mem_prodUniv.mpr ⟨hg.wf.nonempty, hh.wf.nonempty⟩, ?_⟩
  intro s hs m hm
  rw [mem_prodUniv] at hs ⊢
  rcases (mem_prodMoves ..).mp hm with ⟨a, ha, b, hb, r, _, rfl⟩ | ⟨a, ha, r, _, rfl⟩ | ⟨b, hb, r, _, rfl⟩
  · exact ⟨hg.wf.targets _ a ha, hh.wf.targets _ b hb⟩
  · exact ⟨hg.wf.targets _ a ha, hs.2⟩
  · exact ⟨hs.1, hh.wf.targets _ b hb⟩

theorem prod_run {s q : Nat × Nat} {l : List (Sym × Sym)} {w : Int} : Run (prodMoves J L R g h) s l w q ↔
    ∃ a b w₁ w₂, Path g s.1 a w₁ q.1 ∧ Path h s.2 b w₂ q.2 ∧ Merged J L R a b l ∧ w = w₁ + w₂ := by
  constructor
  · intro hr
    induction hr with
    | nil s => exact ⟨[], [], 0, 0, .nil _, .nil _, .nil, rfl⟩
    | cons hm _ ih =>
      obtain ⟨a, b, w₁, w₂, h1, h2, h3, rfl⟩ := ih
      rcases (mem_prodMoves ..).mp hm with ⟨x, hx, y, hy, r, e, rfl⟩ | ⟨x, hx, r, e, rfl⟩ | ⟨y, hy, r, e, rfl⟩
      · exact ⟨_, _, _, _, .cons hx h1, .cons hy h2, .both e h3, by dsimp only; omega⟩
      · exact ⟨_, _, _, _, .cons hx h1, h2, .left e h3, by dsimp only; omega⟩
      · exact ⟨_, _, _, _, h1, .cons hy h2, .right e h3, by dsimp only; omega⟩
  · rintro ⟨a, b, w₁, w₂, h1, h2, h3, rfl⟩
    obtain ⟨s1, s2⟩ := s
    obtain ⟨q1, q2⟩ := q
    dsimp only at h1 h2
    induction h3 generalizing s1 s2 w₁ w₂ with
    | nil =>
      cases h1
      cases h2
      exact .nil _
    | both e _ ih =>
      generalize hk : _ :: _ = k at h1
      generalize hk' : _ :: _ = k' at h2
      cases h1 with
      | nil => cases hk
      | @cons _ _ x _ v hx h1 =>
        cases h2 with
        | nil => cases hk'
        | @cons _ _ y _ v' hy h2 =>
          cases hk; cases hk'
          have := Run.cons (moves := prodMoves J L R g h) (s := (s1, s2)) ((mem_prodMoves ..).mpr
            (.inl ⟨x, hx, y, hy, _, e, rfl⟩)) (ih _ _ _ _ h1 h2)
          rw [show x.weight + v + (y.weight + v') = x.weight + y.weight + (v + v') by omega]
          exact this
    | left e _ ih =>
      generalize hk : _ :: _ = k at h1
      cases h1 with
      | nil => cases hk
      | @cons _ _ x _ v hx h1 =>
        cases hk
        have := Run.cons (moves := prodMoves J L R g h) (s := (s1, s2)) ((mem_prodMoves ..).mpr
          (.inr (.inl ⟨x, hx, _, e, rfl⟩))) (ih _ _ _ _ h1 h2)
        rw [Int.add_assoc]
        exact this
    | right e _ ih =>
      generalize hk' : _ :: _ = k' at h2
      cases h2 with
      | nil => cases hk'
      | @cons _ _ y _ v' hy h2 =>
        cases hk'
        have := Run.cons (moves := prodMoves J L R g h) (s := (s1, s2)) ((mem_prodMoves ..).mpr
          (.inr (.inr ⟨y, hy, _, e, rfl⟩))) (ih _ _ _ _ h1 h2)
        rw [show w₁ + (y.weight + v') = y.weight + (w₁ + v') by omega]
        exact this

theorem prod_cost (hg : Good g) (hh : Good h) (l : List (Sym × Sym)) (w : Int) : Cost (prod J L R g h) l w ↔
    ∃ a b c w₁ w₂, Accepts g a w₁ ∧ Accepts h b w₂ ∧ Merged J L R a b c ∧ strip c = l ∧ w₁ + w₂ ≤ w := by
  unfold prod
  rw [build_cost (prod_machine J L R hg hh)]
  constructor
  · rintro ⟨c, v, q, f, hr, hf, rfl, hw⟩
    obtain ⟨a, b, w₁, w₂, h1, h2, h3, rfl⟩ := (prod_run ..).mp hr
    unfold prodFin at hf
    obtain ⟨f1, hf1, hf⟩ := Option.bind_eq_some_iff.mp hf
    obtain ⟨f2, hf2, rfl⟩ := Option.map_eq_some_iff.mp hf
    exact ⟨a, b, c, w₁ + f1, w₂ + f2, ⟨_, _, _, h1, hf1, rfl⟩, ⟨_, _, _, h2, hf2, rfl⟩, h3, rfl, by omega⟩
  · rintro ⟨a, b, c, _, _, ⟨q1, v1, f1, h1, hf1, rfl⟩, ⟨q2, v2, f2, h2, hf2, rfl⟩, h3, rfl, hw⟩
    refine ⟨c, v1 + v2, (q1, q2), f1 + f2, (prod_run ..).mpr ⟨a, b, v1, v2, h1, h2, h3, rfl⟩, ?_, rfl, by omega⟩
    simp [prodFin, hf1, hf2]

end

/-! ## Intersection and composition -/

/-- Pairs of an intersection (no code of the repository). -/
def meetJ (p q : Sym × Sym) : Option (Sym × Sym) := if p = q ∧ p ≠ (epsilon, epsilon) then some p else none

/-- Epsilon pairs stand alone (no code of the repository). -/
def meetL (p : Sym × Sym) : Option (Sym × Sym) := if p = (epsilon, epsilon) then some p else none

theorem meet_sound {a b c : List (Sym × Sym)} (h : Merged meetJ meetL meetL a b c) : strip a = strip c ∧ strip b = strip c := by
  induction h with
  | nil => exact ⟨rfl, rfl⟩
  | both e _ ih =>
    unfold meetJ at e
    split at e
    · rename_i h
      cases e
      obtain ⟨rfl, h⟩ := h
      rw [strip_cons h, strip_cons h, strip_cons h, ih.1, ih.2]
      exact ⟨rfl, rfl⟩
    · cases e
  | left e _ ih =>
    unfold meetL at e
    split at e
    · rename_i h
      cases e
      rw [h, strip_cons_eps, strip_cons_eps]
      exact ih
    · cases e
  | right e _ ih =>
    unfold meetL at e
    split at e
    · rename_i h
      cases e
      rw [h, strip_cons_eps, strip_cons_eps]
      exact ih
    · cases e

theorem meet_complete {a b : List (Sym × Sym)} (h : strip a = strip b) : ∃ c, Merged meetJ meetL meetL a b c := by
  induction a generalizing b with
  | nil =>
    induction b with
    | nil => exact ⟨[], .nil⟩
    | cons q b ih =>
      by_cases hq : q = (epsilon, epsilon)
      · rw [hq, strip_cons_eps] at h
        obtain ⟨c, hc⟩ := ih h
        exact ⟨_, .right (by simp [meetL, hq]; rfl) hc⟩
      · rw [strip_cons hq] at h; cases h
  | cons p a ih =>
    by_cases hp : p = (epsilon, epsilon)
    · rw [hp, strip_cons_eps] at h
      obtain ⟨c, hc⟩ := ih h
      exact ⟨_, .left (by simp [meetL, hp]; rfl) hc⟩
    · rw [strip_cons hp] at h
      induction b with
      | nil => cases h
      | cons q b ihb =>
        by_cases hq : q = (epsilon, epsilon)
        · rw [hq, strip_cons_eps] at h
          obtain ⟨c, hc⟩ := ihb h
          exact ⟨_, .right (by simp [meetL, hq]; rfl) hc⟩
        · rw [strip_cons hq] at h
          obtain ⟨e1, e2⟩ := List.cons.inj h
          obtain ⟨c, hc⟩ := ih e2
          exact ⟨_, .both (by unfold meetJ; rw [if_pos ⟨e1, hp⟩]) hc⟩

/-- Pairs of a composition (no code of the repository). -/
def compJ (p q : Sym × Sym) : Option (Sym × Sym) := if p.2 = q.1 ∧ p.2 ≠ epsilon then some (p.1, q.2) else none

/-- A pair of the first transducer stands alone (no code of the repository). -/
def compL (p : Sym × Sym) : Option (Sym × Sym) := if p.2 = epsilon then some p else none

/-- A pair of the second transducer stands alone (no code of the repository). -/
def compR (q : Sym × Sym) : Option (Sym × Sym) := if q.1 = epsilon then some q else none

theorem comp_sound {a b c : List (Sym × Sym)} (h : Merged compJ compL compR a b c) :
    ∃ j, Joined (strip a) (strip b) j ∧ strip j = strip c := by
  induction h with
  | nil => exact ⟨[], .nil, rfl⟩
  | @both p q r a b c e _ ih =>
    obtain ⟨j, hj, hs⟩ := ih
    unfold compJ at e
    split at e
    · rename_i h
      cases e
      obtain ⟨x, y⟩ := p
      obtain ⟨y', z⟩ := q
      obtain ⟨h1, h2⟩ := h
      dsimp only at h1 h2
      subst h1
      refine ⟨(x, z) :: j, ?_, ?_⟩
      · rw [strip_cons (by simp [h2]), strip_cons (by simp [h2])]
        exact .both h2 hj
      · simp only [strip, List.filter_cons] at hs ⊢; rw [hs]
    · cases e
  | @left p r a b c e _ ih =>
    obtain ⟨j, hj, hs⟩ := ih
    unfold compL at e
    split at e
    · rename_i h
      cases e
      obtain ⟨x, y⟩ := p
      dsimp only at h
      subst h
      by_cases hx : x = epsilon
      · subst hx
        rw [strip_cons_eps, strip_cons_eps]
        exact ⟨j, hj, hs⟩
      · have hp : (x, epsilon) ≠ (epsilon, epsilon) := by simp [hx]
        refine ⟨(x, epsilon) :: j, ?_, ?_⟩
        · rw [strip_cons hp]; exact .left hj
        · rw [strip_cons hp, strip_cons hp, hs]
    · cases e
  | @right q r a b c e _ ih =>
    obtain ⟨j, hj, hs⟩ := ih
    unfold compR at e
    split at e
    · rename_i h
      cases e
      obtain ⟨y, z⟩ := q
      dsimp only at h
      subst h
      by_cases hz : z = epsilon
      · subst hz
        rw [strip_cons_eps, strip_cons_eps]
        exact ⟨j, hj, hs⟩
      · have hp : (epsilon, z) ≠ (epsilon, epsilon) := by simp [hz]
        refine ⟨(epsilon, z) :: j, ?_, ?_⟩
        · rw [strip_cons hp]; exact .right hj
        · rw [strip_cons hp, strip_cons hp, hs]
    · cases e

theorem comp_complete {a b : List (Sym × Sym)} (h : outs a = ins b) : ∃ c, Merged compJ compL compR a b c := by
  induction a generalizing b with
  | nil =>
    induction b with
    | nil => exact ⟨[], .nil⟩
    | cons q b ih =>
      rw [ins_cons] at h
      by_cases hq : q.1 = epsilon
      · rw [if_pos hq] at h
        obtain ⟨c, hc⟩ := ih h
        exact ⟨_, .right (by unfold compR; rw [if_pos hq]) hc⟩
      · rw [if_neg hq] at h; cases h
  | cons p a ih =>
    rw [outs_cons] at h
    by_cases hp : p.2 = epsilon
    · rw [if_pos hp] at h
      obtain ⟨c, hc⟩ := ih h
      exact ⟨_, .left (by unfold compL; rw [if_pos hp]) hc⟩
    · rw [if_neg hp] at h
      induction b with
      | nil => cases h
      | cons q b ihb =>
        rw [ins_cons] at h
        by_cases hq : q.1 = epsilon
        · rw [if_pos hq] at h
          obtain ⟨c, hc⟩ := ihb h
          exact ⟨_, .right (by unfold compR; rw [if_pos hq]) hc⟩
        · rw [if_neg hq] at h
          obtain ⟨e1, e2⟩ := List.cons.inj h
          obtain ⟨c, hc⟩ := ih e2
          exact ⟨_, .both (by unfold compJ; rw [if_pos ⟨e1, hp⟩]) hc⟩

/-! ## Difference -/

theorem path_append {g : Graph} {s t q : Nat} {l k : List (Sym × Sym)} {w v : Int} (h1 : Path g s l w t) (h2 : Path g t k v q) :
    Path g s (l ++ k) (w + v) q := by
  induction h1 with
  | nil => simpa using h2
  | cons ha _ ih =>
    rw [Int.add_assoc]
    exact .cons ha (ih h2)

theorem path_split {g : Graph} {s q : Nat} {l k : List (Sym × Sym)} {w : Int} (h : Path g s (l ++ k) w q) :
    ∃ t v v', Path g s l v t ∧ Path g t k v' q := by
  induction l generalizing s w with
  | nil => exact ⟨s, 0, w, .nil s, h⟩
  | cons p l ih =>
    rw [List.cons_append] at h
    generalize hm : p :: (l ++ k) = m at h
    cases h with
    | nil => cases hm
    | cons ha h =>
      cases hm
      obtain ⟨t, v, v', h1, h2⟩ := ih h
      exact ⟨t, _, v', .cons ha h1, h2⟩

open Classical in
/-- The states that can be reached with a sequence (no code of the repository). -/
noncomputable def reached (h : Graph) (k : List (Sym × Sym)) : List Nat :=
  (List.range h.states.length).filter fun t => ∃ l w, Path h 0 l w t ∧ strip l = k

open Classical in
/-- The states that can be reached with one more pair (no code of the repository). -/
noncomputable def further (h : Graph) (T : List Nat) (p : Sym × Sym) : List Nat :=
  (List.range h.states.length).filter fun t => ∃ u ∈ T, ∃ l w, Path h u l w t ∧ strip l = [p]

theorem path_target {h : Graph} (hh : Good h) {s t : Nat} {l : List (Sym × Sym)} {w : Int} (hp : Path h s l w t)
    (hs : s < h.states.length) : t < h.states.length := by
  induction hp with
  | nil => exact hs
  | cons ha _ ih => exact ih (hh.wf.targets _ _ ha)

open Classical in
theorem mem_reached {h : Graph} (hh : Good h) {k : List (Sym × Sym)} {t : Nat} :
    t ∈ reached h k ↔ ∃ l w, Path h 0 l w t ∧ strip l = k := by
  unfold reached
  rw [List.mem_filter]
  constructor
  · rintro ⟨_, h⟩
    exact of_decide_eq_true h
  · intro h
    refine ⟨List.mem_range.mpr ?_, decide_eq_true h⟩
    obtain ⟨l, w, hp, _⟩ := h
    exact path_target hh hp hh.wf.nonempty

theorem further_reached {h : Graph} (hh : Good h) (k : List (Sym × Sym)) {p : Sym × Sym} :
    further h (reached h k) p = reached h (k ++ [p]) := by
  unfold further
  rw [show reached h (k ++ [p]) = (List.range h.states.length).filter _ from rfl]
  refine List.filter_congr fun t ht => ?_
  rw [decide_eq_decide]
  constructor
  · rintro ⟨u, hu, l, w, hp, hl⟩
    obtain ⟨l', w', hp', hl'⟩ := (mem_reached hh).mp hu
    exact ⟨l' ++ l, w' + w, path_append hp' hp, by rw [strip_append, hl', hl]⟩
  · rintro ⟨l, w, hp, hl⟩
    obtain ⟨l1, l2, rfl, h1, h2⟩ := List.filter_eq_append_iff.mp hl
    obtain ⟨u, v, v', hp1, hp2⟩ := path_split hp
    refine ⟨u, ?_, l2, v', hp2, h2⟩
    exact (mem_reached hh).mpr ⟨l1, v, hp1, h1⟩

/-- Transitions of the difference (no code of the repository). -/
noncomputable def subMoves (g h : Graph) (s : Nat × List Nat) : List (Move (Nat × List Nat)) :=
  (g.arcs s.1).map fun a =>
    ⟨(a.target, if a.label = (epsilon, epsilon) then s.2 else further h s.2 a.label), a.label, a.weight⟩

/-- States of the difference (no code of the repository). -/
def subUniv (g h : Graph) : List (Nat × List Nat) :=
  (List.range g.states.length) ×ˢ (List.range h.states.length).sublists

open Classical in
/-- Final weights of the difference (no code of the repository). -/
noncomputable def subFin (g h : Graph) (s : Nat × List Nat) : Option Int :=
  if ∃ t ∈ s.2, ∃ f, h.final t = some f then none else g.final s.1

/-- The difference (no code of the repository). -/
noncomputable def difference (g h : Graph) : Graph :=
  build (subUniv g h) (0, reached h []) (subMoves g h) (subFin g h) g.alphabet

theorem mem_subUniv {g h : Graph} {s : Nat × List Nat} :
    s ∈ subUniv g h ↔ s.1 < g.states.length ∧ s.2.Sublist (List.range h.states.length) := by
  obtain ⟨a, b⟩ := s
  simp [subUniv, List.mem_product, List.mem_sublists]

theorem sub_machine {g h : Graph} (hg : Good g) : Machine (subUniv g h) (0, reached h []) (subMoves g h) := by
  refine ⟨List.nodup_range.product (List.nodup_sublists.mpr List.nodup_range), mem_subUniv.mpr ⟨hg.wf.nonempty,
    List.filter_sublist⟩, ?_⟩
  intro s hs m hm
  rw [mem_subUniv] at hs ⊢
  obtain ⟨a, ha, rfl⟩ := List.mem_map.mp hm
  refine ⟨hg.wf.targets _ a ha, ?_⟩
  dsimp only
  split
  · exact hs.2
  · exact List.filter_sublist

theorem sub_run {g h : Graph} (hh : Good h) {s q : Nat × List Nat} {l : List (Sym × Sym)} {w : Int} (k : List (Sym × Sym))
    (hs : s.2 = reached h k) : Run (subMoves g h) s l w q ↔ Path g s.1 l w q.1 ∧ q.2 = reached h (k ++ strip l) := by
  have step : ∀ (k : List (Sym × Sym)) (T : List Nat) (a : Arc), T = reached h k →
      (if a.label = (epsilon, epsilon) then T else further h T a.label) = reached h (k ++ strip [a.label]) := by
    rintro k T a rfl
    split
    · rename_i e; rw [e, strip_cons_eps]; simp [strip]
    · rename_i e; rw [strip_cons e, further_reached hh]; rfl
  constructor
  · intro hr
    induction hr generalizing k with
    | nil => exact ⟨.nil _, by rw [hs]; simp [strip]⟩
    | cons hm _ ih =>
      obtain ⟨a, ha, rfl⟩ := List.mem_map.mp hm
      obtain ⟨h1, h2⟩ := ih _ (step k _ a hs)
      refine ⟨.cons ha h1, ?_⟩
      rw [h2, List.append_assoc, ← strip_append]
      rfl
  · rintro ⟨hp, hq⟩
    obtain ⟨s1, s2⟩ := s
    obtain ⟨q1, q2⟩ := q
    dsimp only at hp hq hs
    induction hp generalizing k s2 with
    | nil =>
      have : q2 = s2 := by rw [hq, hs]; simp [strip]
      rw [this]; exact .nil _
    | @cons s1 q1 a l w ha _ ih =>
      have := Run.cons (moves := subMoves g h) (s := (s1, s2)) (List.mem_map.mpr ⟨a, ha, rfl⟩)
        (ih (k ++ strip [a.label]) _ (step k s2 a hs) (by
          rw [List.append_assoc, ← strip_append]
          exact hq))
      exact this

theorem sub_cost {g h : Graph} (hg : Good g) (hh : Good h) (l : List (Sym × Sym)) (w : Int) :
    Cost (difference g h) l w ↔ Cost g l w ∧ ∀ v, ¬ Cost h l v := by
  unfold difference
  rw [build_cost (sub_machine hg)]
  have hfin : ∀ k, (∃ t ∈ reached h k, ∃ f, h.final t = some f) ↔ ∃ v, Cost h k v := by
    intro k
    constructor
    · rintro ⟨t, ht, f, hf⟩
      obtain ⟨l, w, hp, hl⟩ := (mem_reached hh).mp ht
      exact ⟨w + f, l, w + f, ⟨t, w, f, hp, hf, rfl⟩, hl, Int.le_refl _⟩
    · rintro ⟨v, l, w', ⟨t, w, f, hp, hf, rfl⟩, hl, _⟩
      exact ⟨t, (mem_reached hh).mpr ⟨l, w, hp, hl⟩, f, hf⟩
  constructor
  · rintro ⟨l', v, q, f, hr, hf, rfl, hw⟩
    obtain ⟨h1, h2⟩ := (sub_run hh [] rfl).mp hr
    rw [List.nil_append] at h2
    unfold subFin at hf
    split at hf
    · cases hf
    · rename_i hn
      rw [h2, hfin] at hn
      exact ⟨⟨l', v + f, ⟨_, _, _, h1, hf, rfl⟩, rfl, hw⟩, fun v hv => hn ⟨v, hv⟩⟩
  · rintro ⟨⟨l', w', ⟨q, v, f, hp, hf, rfl⟩, rfl, hw⟩, hn⟩
    refine ⟨l', v, (q, reached h (strip l')), f, (sub_run hh [] rfl).mpr ⟨hp, by rw [List.nil_append]⟩, ?_, rfl, hw⟩
    unfold subFin
    rw [if_neg]
    · exact hf
    · rw [hfin]
      rintro ⟨v, hv⟩
      exact hn v hv

/-! ## The reference back-end -/

/-- The transitions with other labels (no code of the repository). -/
def relabelled (f : Sym × Sym → Sym × Sym) (g : Graph) : Graph :=
  { g with states := g.states.map fun l => l.map fun a => ⟨a.target, (f a.label).1, (f a.label).2, a.weight⟩ }

theorem relabelled_arcs (f : Sym × Sym → Sym × Sym) (g : Graph) (s : Nat) : (relabelled f g).arcs s =
    (g.arcs s).map fun a => ⟨a.target, (f a.label).1, (f a.label).2, a.weight⟩ :=
  Graph.arcs_map g (fun l => l.map fun a : Arc => (⟨a.target, (f a.label).1, (f a.label).2, a.weight⟩ : Arc)) rfl s g.alphabet

theorem relabelled_good {f : Sym × Sym → Sym × Sym} {g : Graph} (hg : Good g)
    (hf : ∀ p, p.1 ∈ g.alphabet ∧ p.2 ∈ g.alphabet → (f p).1 ∈ g.alphabet ∧ (f p).2 ∈ g.alphabet) : Good (relabelled f g) := by
  refine ⟨wf_mapStates hg.wf _ rfl ?_ g.alphabet, ⟨?_, hg.alpha.eps, hg.alpha.unk, hg.alpha.idn⟩, hg.finals⟩
  · intro l a ha
    obtain ⟨b, hb, rfl⟩ := List.mem_map.mp ha
    exact ⟨b, hb, rfl⟩
  · intro s a ha
    rw [relabelled_arcs] at ha
    obtain ⟨b, hb, rfl⟩ := List.mem_map.mp ha
    exact hf _ (hg.alpha.arcs s b hb)

theorem relabelled_label {f : Sym × Sym → Sym × Sym} {g : Graph} {p : Sym × Sym} (h : HasLabel (relabelled f g) p) :
    ∃ q, HasLabel g q ∧ p = f q := by
  obtain ⟨s, a, ha, rfl⟩ := h
  rw [relabelled_arcs] at ha
  obtain ⟨b, hb, rfl⟩ := List.mem_map.mp ha
  exact ⟨b.label, ⟨s, b, hb, rfl⟩, rfl⟩

theorem relabelled_cost {f : Sym × Sym → Sym × Sym} (hf : f (epsilon, epsilon) = (epsilon, epsilon)) (g : Graph)
    (l : List (Sym × Sym)) (w : Int) : Cost (relabelled f g) l w ↔ ∃ l', Cost g l' w ∧ l = strip (l'.map f) := by
  have hacc := relabel_accepts (g := g) (g' := relabelled f g) (R := fun p p' => p' = f p) (by
    intro s a'
    rw [relabelled_arcs, List.mem_map]
    constructor
    · rintro ⟨a, ha, rfl⟩
      exact ⟨a, ha, rfl, rfl, rfl⟩
    · rintro ⟨a, ha, ht, hw, hr⟩
      refine ⟨a, ha, ?_⟩
      obtain ⟨t, x, y, w⟩ := a'
      dsimp only at ht hw
      subst ht hw
      rw [← hr]; rfl) (fun _ => rfl)
  have hst : ∀ l : List (Sym × Sym), strip ((strip l).map f) = strip (l.map f) := by
    intro l
    induction l with
    | nil => rfl
    | cons p l ih =>
      by_cases hp : p = (epsilon, epsilon)
      · rw [hp, strip_cons_eps, List.map_cons, hf, strip_cons_eps, ih]
      · rw [strip_cons hp, List.map_cons, List.map_cons]
        simp only [strip, List.filter_cons] at ih ⊢
        rw [ih]
  constructor
  · rintro ⟨l', w', ha, rfl, hw⟩
    obtain ⟨k, hk, he⟩ := (hacc _ _).mp ha
    rw [forall₂_map] at he
    subst he
    exact ⟨strip k, ⟨k, w', hk, rfl, hw⟩, (hst k).symm⟩
  · rintro ⟨_, ⟨k, w', hk, rfl, hw⟩, rfl⟩
    exact ⟨k.map f, w', (hacc _ _).mpr ⟨k, hk, (forall₂_map ..).mpr rfl⟩, (hst k).symm, hw⟩

open Classical in
/-- A back-end on graphs (no code of the repository). -/
noncomputable def reference : Backend where
  optimize := id
  star g := { joined 1 [(0, 0)] [(⟨0, 0, 0⟩, g)] with alphabet := g.alphabet }
  concat g h := { joined 3 [(2, 0)] [(⟨0, 1, 0⟩, g), (⟨1, 2, 0⟩, h)] with alphabet := g.alphabet }
  disjunct g h := { joined 2 [(1, 0)] [(⟨0, 1, 0⟩, g), (⟨0, 1, 0⟩, h)] with alphabet := g.alphabet }
  intersect := prod meetJ meetL meetL
  subtract := difference
  compose := prod compJ compL compR
  projectInput := relabelled fun p => (p.1, p.1)
  projectOutput := relabelled fun p => (p.2, p.2)
  invert := relabelled Prod.swap
  equivalent g h := decide (∀ l w, Cost g l w ↔ Cost h l w)

theorem with_alphabet_good {g : Graph} (hg : Good g) {al : List Sym} (hal : epsilon ∈ al ∧ unknown ∈ al ∧ identity ∈ al)
    (hl : ∀ p, HasLabel g p → p.1 ∈ al ∧ p.2 ∈ al) : Good { g with alphabet := al } :=
  ⟨⟨hg.wf.nonempty, hg.wf.targets, hg.wf.finals⟩, ⟨fun s a ha => hl _ ⟨s, a, ha, rfl⟩, hal.1, hal.2.1, hal.2.2⟩, hg.finals⟩

theorem with_alphabet_path {g : Graph} {al : List Sym} {s q : Nat} {l : List (Sym × Sym)} {w : Int} :
    Path { g with alphabet := al } s l w q ↔ Path g s l w q := by
  constructor
  · intro h
    induction h with
    | nil => exact .nil _
    | cons ha _ ih => exact .cons ha ih
  · intro h
    induction h with
    | nil => exact .nil _
    | cons ha _ ih => exact .cons (g := { g with alphabet := al }) ha ih

theorem with_alphabet_cost {g : Graph} {al : List Sym} {l : List (Sym × Sym)} {w : Int} :
    Cost { g with alphabet := al } l w ↔ Cost g l w := by
  unfold Cost Accepts
  simp only [with_alphabet_path]
  exact Iff.rfl

theorem specials {g : Graph} (hg : Good g) : epsilon ∈ g.alphabet ∧ unknown ∈ g.alphabet ∧ identity ∈ g.alphabet :=
  ⟨hg.alpha.eps, hg.alpha.unk, hg.alpha.idn⟩

theorem label_alpha_or {g h : Graph} (hg : Good g) (hh : Good h) (hs : Same g h) {p : Sym × Sym}
    (hp : HasLabel g p ∨ HasLabel h p ∨ p = (epsilon, epsilon)) : p.1 ∈ g.alphabet ∧ p.2 ∈ g.alphabet := by
  rcases hp with hp | hp | rfl
  · exact label_alpha hg hp
  · have := label_alpha hh hp
    exact ⟨(hs _).mpr this.1, (hs _).mpr this.2⟩
  · exact ⟨hg.alpha.eps, hg.alpha.eps⟩

theorem prod_good {J : Sym × Sym → Sym × Sym → Option (Sym × Sym)} {L R : Sym × Sym → Option (Sym × Sym)} {g h : Graph}
    (hg : Good g) (hh : Good h)
    (hJ : ∀ p q r, HasLabel g p → HasLabel h q → J p q = some r → r.1 ∈ g.alphabet ∧ r.2 ∈ g.alphabet)
    (hL : ∀ p r, HasLabel g p → L p = some r → r.1 ∈ g.alphabet ∧ r.2 ∈ g.alphabet)
    (hR : ∀ q r, HasLabel h q → R q = some r → r.1 ∈ g.alphabet ∧ r.2 ∈ g.alphabet) : Good (prod J L R g h) := by
  refine build_good (prod_machine J L R hg hh) (specials hg) ?_
  intro s _ m hm
  rcases (mem_prodMoves ..).mp hm with ⟨a, ha, b, hb, r, e, rfl⟩ | ⟨a, ha, r, e, rfl⟩ | ⟨b, hb, r, e, rfl⟩
  · exact hJ _ _ r ⟨_, a, ha, rfl⟩ ⟨_, b, hb, rfl⟩ e
  · exact hL _ r ⟨_, a, ha, rfl⟩ e
  · exact hR _ r ⟨_, b, hb, rfl⟩ e

theorem meetJ_some {p q r : Sym × Sym} (h : meetJ p q = some r) : r = p := by
  unfold meetJ at h
  split at h
  · exact (Option.some.inj h).symm
  · cases h

theorem meetL_some {p r : Sym × Sym} (h : meetL p = some r) : r = (epsilon, epsilon) := by
  unfold meetL at h
  split at h
  · rename_i e
    rw [← e]; exact (Option.some.inj h).symm
  · cases h

/-- The reference back-end meets all assumptions. -/
theorem reference_ok : reference.Ok where
  optimize g hg := ⟨hg, fun _ => Iff.rfl, fun _ h => .inl h, fun _ _ => Iff.rfl⟩
  star g hg := by
    have hl := star_joined_labels hg
    refine ⟨with_alphabet_good (joined_good (by omega) (by simp) (by simp) _) (specials hg) fun p hp => ?_, fun _ => Iff.rfl, hl,
      fun l w => with_alphabet_cost.trans (star_joined_cost hg l w)⟩
    rcases hl p hp with h | rfl
    · exact label_alpha hg h
    · exact ⟨hg.alpha.eps, hg.alpha.eps⟩
  concat g h hg hh hs := by
    have hl := concat_joined_labels hg hh
    refine ⟨with_alphabet_good (joined_good (by omega) (by simp) (by simp) _) (specials hg) fun p hp =>
      label_alpha_or hg hh hs (hl p hp), fun _ => Iff.rfl, fun p hp => or_assoc.mpr (hl p hp),
      fun l w => with_alphabet_cost.trans ((concat_joined_cost hg hh l w).trans ?_)⟩
    constructor
    · rintro ⟨l₁, l₂, w₁, w₂, h1, h2, h3, h4⟩
      exact ⟨l₁, l₂, w₁, w₂, h1, h2, h3, by omega⟩
    · rintro ⟨l₁, l₂, w₁, w₂, h1, h2, h3, h4⟩
      exact ⟨l₁, l₂, w₁, w - w₁, h1, h2.mono (by omega), h3, by omega⟩
  disjunct g h hg hh hs := by
    have hl := disjunct_joined_labels hg hh
    exact ⟨with_alphabet_good (joined_good (by omega) (by simp) (by simp) _) (specials hg) fun p hp =>
      label_alpha_or hg hh hs (hl p hp), fun _ => Iff.rfl, fun p hp => or_assoc.mpr (hl p hp),
      fun l w => with_alphabet_cost.trans (disjunct_joined_cost hg hh l w)⟩
  intersect g h hg hh hs := by
    refine ⟨prod_good hg hh ?_ ?_ ?_, fun _ => Iff.rfl, ?_, ?_⟩
    · intro p q r hp _ e
      rw [meetJ_some e]; exact label_alpha hg hp
    · intro p r _ e
      rw [meetL_some e]; exact ⟨hg.alpha.eps, hg.alpha.eps⟩
    · intro p r _ e
      rw [meetL_some e]; exact ⟨hg.alpha.eps, hg.alpha.eps⟩
    · intro p hp
      rcases build_label hp with ⟨s, _, m, hm, rfl⟩ | h
      · rcases (mem_prodMoves ..).mp hm with ⟨a, ha, b, hb, r, e, rfl⟩ | ⟨a, ha, r, e, rfl⟩ | ⟨b, hb, r, e, rfl⟩
        · dsimp only; rw [meetJ_some e]; exact .inl ⟨_, a, ha, rfl⟩
        · exact .inr (meetL_some e)
        · exact .inr (meetL_some e)
      · exact .inr h
    · intro l w
      show Cost (prod meetJ meetL meetL g h) l w ↔ _
      rw [prod_cost meetJ meetL meetL hg hh]
      constructor
      · rintro ⟨a, b, c, w₁, w₂, h1, h2, h3, rfl, hw⟩
        obtain ⟨e1, e2⟩ := meet_sound h3
        exact ⟨w₁, w₂, ⟨a, w₁, h1, e1, Int.le_refl _⟩, ⟨b, w₂, h2, e2, Int.le_refl _⟩, hw⟩
      · rintro ⟨w₁, w₂, ⟨a, v₁, h1, e1, hv1⟩, ⟨b, v₂, h2, e2, hv2⟩, hw⟩
        obtain ⟨c, hc⟩ := meet_complete (e1.trans e2.symm)
        exact ⟨a, b, c, v₁, v₂, h1, h2, hc, by rw [← (meet_sound hc).1, e1], by omega⟩
  subtract g h hg hh hs := by
    refine ⟨build_good (sub_machine hg) (specials hg) ?_, fun _ => Iff.rfl, ?_, sub_cost hg hh⟩
    · intro s _ m hm
      obtain ⟨a, ha, rfl⟩ := List.mem_map.mp hm
      exact hg.alpha.arcs _ a ha
    · intro p hp
      rcases build_label hp with ⟨s, _, m, hm, rfl⟩ | h
      · obtain ⟨a, ha, rfl⟩ := List.mem_map.mp hm
        exact .inl ⟨_, a, ha, rfl⟩
      · exact .inr h
  projectInput g hg := by
    refine ⟨relabelled_good (f := fun p => (p.1, p.1)) hg fun p hp => ⟨hp.1, hp.1⟩, fun _ => Iff.rfl, fun p hp => ?_,
      relabelled_cost (f := fun p => (p.1, p.1)) rfl g⟩
    obtain ⟨q, _, rfl⟩ := relabelled_label hp
    exact .inl rfl
  projectOutput g hg := by
    refine ⟨relabelled_good (f := fun p => (p.2, p.2)) hg fun p hp => ⟨hp.2, hp.2⟩, fun _ => Iff.rfl, fun p hp => ?_,
      relabelled_cost (f := fun p => (p.2, p.2)) rfl g⟩
    obtain ⟨q, _, rfl⟩ := relabelled_label hp
    exact .inl rfl
  invert g hg := by
    refine ⟨relabelled_good hg fun p hp => ⟨hp.2, hp.1⟩, fun _ => Iff.rfl, fun p hp => ?_, fun l w =>
      (relabelled_cost rfl g l w).trans ?_⟩
    · obtain ⟨q, h, rfl⟩ := relabelled_label hp
      exact .inl (by simpa using h)
    · refine exists_congr fun l' => and_congr_right fun hc => ?_
      rw [strip_id]
      intro p hp e
      obtain ⟨q, hq, rfl⟩ := List.mem_map.mp hp
      have hq' : q = (epsilon, epsilon) := by
        obtain ⟨x, y⟩ := q
        simp only [Prod.swap, Prod.mk.injEq] at e ⊢
        exact ⟨e.2, e.1⟩
      rw [← hc.stripped] at hq
      exact (mem_strip.mp hq).2 hq'
  compose_good g h hg hh hs := by
    have hh' : ∀ q, HasLabel h q → q.1 ∈ g.alphabet ∧ q.2 ∈ g.alphabet := fun q hq =>
      ⟨(hs _).mpr (label_alpha hh hq).1, (hs _).mpr (label_alpha hh hq).2⟩
    refine prod_good hg hh ?_ ?_ ?_
    · intro p q r hp hq e
      unfold compJ at e
      split at e
      · cases e; exact ⟨(label_alpha hg hp).1, (hh' q hq).2⟩
      · cases e
    · intro p r hp e
      unfold compL at e
      split at e
      · cases e; exact label_alpha hg hp
      · cases e
    · intro q r hq e
      unfold compR at e
      split at e
      · cases e; exact hh' _ hq
      · cases e
  compose_alphabet g h _ _ _ := fun _ => Iff.rfl
  compose_sound g h hg hh hs l w hc := by
    obtain ⟨a, b, c, w₁, w₂, h1, h2, h3, rfl, hw⟩ := (prod_cost compJ compL compR hg hh l w).mp hc
    obtain ⟨j, hj, hst⟩ := comp_sound h3
    exact ⟨strip a, strip b, j, w₁, w₂, ⟨a, w₁, h1, rfl, Int.le_refl _⟩, ⟨b, w₂, h2, rfl, Int.le_refl _⟩, hj, hst, hw⟩
  compose_complete g h hg hh hs a b w₁ w₂ ha hb hm := by
    obtain ⟨a, v₁, h1, rfl, hv1⟩ := ha
    obtain ⟨b, v₂, h2, rfl, hv2⟩ := hb
    rw [outs_strip, ins_strip] at hm
    obtain ⟨c, hc⟩ := comp_complete hm
    obtain ⟨j, hj, hst⟩ := comp_sound hc
    exact ⟨j, hj, (prod_cost compJ compL compR hg hh _ _).mpr ⟨a, b, c, v₁, v₂, h1, h2, hc, hst.symm, by omega⟩⟩
  equivalent g h _ _ _ := by
    unfold reference
    exact @decide_eq_true_iff _ (Classical.propDecidable _)

/-- So the assumptions of the theorems can be met. -/
theorem ok_exists : ∃ B : Backend, B.Ok := ⟨reference, reference_ok⟩

end Hfst.Trans
