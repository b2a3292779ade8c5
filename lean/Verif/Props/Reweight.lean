import Verif.Spec.Reweight
import Verif.Lemmas.Graph
import Mathlib.Data.List.Forall2

/-!
# C93: reweighting changes exactly the weights that match
-/
namespace Hfst.Reweight
open Hfst.StdString Hfst.Basic Hfst.Basic.Graph

/-! ## One weight -/

theorem differs_false {s : Option Sym} {x : Sym} : differs s x = false ↔ ∀ y, s = some y → x = y := by
  cases s <;> simp [differs]

theorem reweight_arc (o : Options) (i u : Sym) (w : Int) : reweight o w (some (i, u)) = newArc o i u w := by
  have hb : (w < o.lower || w > o.upper) = false ↔ o.lower ≤ w ∧ w ≤ o.upper := by
    simp only [Bool.or_eq_false_iff, decide_eq_false_iff_not, Int.not_lt, gt_iff_lt]
  have hs : (differs o.symbol i && differs o.symbol u) = false ↔ ∀ x, o.symbol = some x → i = x ∨ u = x := by
    rw [Bool.and_eq_false_iff, differs_false, differs_false]
    cases o.symbol <;> simp
  unfold reweight newArc
  by_cases hm : MatchesArc o i u w
  · rw [if_pos hm]
    obtain ⟨h1, h2, h3, h4, h5, h6⟩ := hm
    simp only [hb.2 ⟨h1, h2⟩, h3, hs.2 h6, differs_false.2 h4, differs_false.2 h5, Bool.false_eq_true, if_false, Bool.and_false]
  · rw [if_neg hm]
    cases e1 : (w < o.lower || w > o.upper) with
    | true => simp only [if_true]
    | false =>
    cases e2 : o.endsOnly with
    | true => simp only [if_true, Bool.false_eq_true, if_false]
    | false =>
    cases e3 : (differs o.symbol i && differs o.symbol u) with
    | true => simp only [e3, if_true, Bool.false_eq_true, if_false]
    | false =>
    cases e4 : differs o.input i with
    | true => simp only [e3, e4, if_true, Bool.false_eq_true, ite_self]
    | false =>
    cases e5 : differs o.output u with
    | true => simp only [e3, e4, e5, if_true, Bool.false_eq_true, ite_self, Bool.false_and]
    | false => exact absurd ⟨(hb.1 e1).1, (hb.1 e1).2, e2, differs_false.1 e4, differs_false.1 e5, hs.1 e3⟩ hm

theorem reweight_end (o : Options) (w : Int) : reweight o w none = newEnd o w := by
  have hb : (w < o.lower || w > o.upper) = false ↔ o.lower ≤ w ∧ w ≤ o.upper := by
    simp only [Bool.or_eq_false_iff, decide_eq_false_iff_not, Int.not_lt, gt_iff_lt]
  unfold reweight newEnd
  by_cases hm : MatchesEnd o w
  · rw [if_pos hm]
    obtain ⟨h1, h2, h3⟩ := hm
    simp only [hb.2 ⟨h1, h2⟩, h3, Bool.false_eq_true, if_false]
  · rw [if_neg hm]
    cases e1 : (w < o.lower || w > o.upper) with
    | true => simp only [if_true]
    | false =>
    cases e2 : o.arcsOnly with
    | true => simp only [if_true, Bool.false_eq_true, if_false]
    | false => exact absurd ⟨(hb.1 e1).1, (hb.1 e1).2, e2⟩ hm

/-! ## The copy -/

/-- `b` is the copy of the transition `a`. -/
def Copied (o : Options) (m : List (Nat × Nat)) (a b : Arc) : Prop :=
  mapGet m a.target = some b.target ∧ b.inp = a.inp ∧ b.out = a.out ∧ b.weight = newArc o a.inp a.out a.weight

/-- The transitions `P` have been copied so far. -/
structure Inv (o : Options) (g : Graph) (P : Nat → List Arc) (c : Copying) : Prop where
  zero : mapGet c.rebuilt 0 = some 0
  inj : ∀ s t i, mapGet c.rebuilt s = some i → mapGet c.rebuilt t = some i → s = t
  lt : ∀ s i, mapGet c.rebuilt s = some i → i < c.count
  surj : ∀ i < c.count, ∃ s, mapGet c.rebuilt s = some i
  len : c.rep.states.length = c.count
  arcs : ∀ s i, mapGet c.rebuilt s = some i → List.Forall₂ (Copied o c.rebuilt) (P s) (c.rep.arcs i)
  final : ∀ s i, mapGet c.rebuilt s = some i → c.rep.final i = (g.final s).map (newEnd o)
  out : ∀ i, c.count ≤ i → c.rep.final i = none
  none : ∀ s, mapGet c.rebuilt s = none → P s = []

/-- Nothing of the map is lost. -/
def Ext (c c' : Copying) : Prop := ∀ s i, mapGet c.rebuilt s = some i → mapGet c'.rebuilt s = some i

theorem final_copyFinal (o : Options) (g : Graph) (s t : Nat) (r : Graph) (i : Nat) (hr : r.final t = none) :
    (copyFinal o g s t r).final i = if i = t then (g.final s).map (newEnd o) else r.final i := by
  unfold copyFinal
  cases h : g.final s with
  | none =>
    simp only [Option.map_none]
    by_cases e : i = t
    · rw [if_pos e, e, hr]
    · rw [if_neg e]
  | some w => simp only [final_setFinal, Option.map_some, reweight_end]

theorem arcs_copyFinal (o : Options) (g : Graph) (s t : Nat) (r : Graph) (i : Nat) :
    (copyFinal o g s t r).arcs i = r.arcs i := by
  unfold copyFinal; split <;> simp

theorem length_copyFinal (o : Options) (g : Graph) (s t : Nat) (r : Graph) (h : t < r.states.length) :
    (copyFinal o g s t r).states.length = r.states.length := by
  unfold copyFinal
  split
  · rfl
  · show (r.addStateN t).states.length = _
    rw [length_addStateN]; omega

theorem visit_inv {o : Options} {g : Graph} {P : Nat → List Arc} {c : Copying} (h : Inv o g P c) (s : Nat) :
    Inv o g P (visit o g c s) ∧ Ext c (visit o g c s) ∧ ∃ i, mapGet (visit o g c s).rebuilt s = some i := by
  unfold visit
  cases hm : mapGet c.rebuilt s with
  | some i => exact ⟨h, fun _ _ h => h, i, hm⟩
  | none =>
    simp only
    have hext : ∀ t i, mapGet c.rebuilt t = some i → mapGet (mapPut c.rebuilt s c.count) t = some i := by
      intro t i ht
      rw [mapGet_put, if_neg]
      · exact ht
      · rintro rfl
        rw [hm] at ht; cases ht
    have hl : (c.rep.addStateN c.count).states.length = c.count + 1 := by rw [length_addStateN, h.len]; omega
    have hfin : ∀ i, (copyFinal o g s c.count (c.rep.addStateN c.count)).final i =
        if i = c.count then (g.final s).map (newEnd o) else c.rep.final i := by
      intro i
      rw [final_copyFinal]
      · rfl
      · exact h.out _ (Nat.le_refl _)
    refine ⟨⟨hext _ _ h.zero, ?_, ?_, ?_, ?_, ?_, ?_, ?_, ?_⟩, hext, c.count, by rw [mapGet_put, if_pos rfl]⟩
    · intro a b i ha hb
      simp only [mapGet_put] at ha hb
      split at ha <;> split at hb
      · rename_i e1 e2; rw [e1, e2]
      · cases ha; exact absurd (h.lt _ _ hb) (Nat.lt_irrefl _)
      · cases hb; exact absurd (h.lt _ _ ha) (Nat.lt_irrefl _)
      · exact h.inj a b i ha hb
    · intro a i ha
      simp only [mapGet_put] at ha
      split at ha
      · cases ha; exact Nat.lt_succ_self _
      · exact Nat.lt_succ_of_lt (h.lt _ _ ha)
    · intro i hi
      rcases Nat.lt_succ_iff_lt_or_eq.1 hi with hi | rfl
      · obtain ⟨t, ht⟩ := h.surj i hi
        exact ⟨t, hext _ _ ht⟩
      · exact ⟨s, by simp only [mapGet_put, if_true]⟩
    · simp only
      rw [length_copyFinal _ _ _ _ _ (by omega), hl]
    · intro a i ha
      simp only [arcs_copyFinal, arcs_addStateN]
      simp only [mapGet_put] at ha
      split at ha
      · rename_i e
        cases ha
        rw [e, h.none s hm, arcs_eq_nil _ (Nat.le_of_eq h.len)]
        exact .nil
      · exact (h.arcs a i ha).imp fun x y hxy => ⟨hext _ _ hxy.1, hxy.2⟩
    · intro a i ha
      simp only [mapGet_put] at ha
      simp only [hfin]
      split at ha
      · rename_i e
        cases ha
        rw [if_pos rfl, e]
      · rw [if_neg (Nat.ne_of_lt (h.lt _ _ ha))]
        exact h.final a i ha
    · intro i hi
      simp only [hfin]
      simp only at hi
      rw [if_neg (by omega)]
      exact h.out i (by omega)
    · intro a ha
      simp only [mapGet_put] at ha
      split at ha
      · cases ha
      · exact h.none a ha

theorem copyArc_inv {o : Options} {g : Graph} {P : Nat → List Arc} {c : Copying} (h : Inv o g P c) {s i : Nat}
    (hs : mapGet c.rebuilt s = some i) (a : Arc) :
    Inv o g (fun t => if t = s then P s ++ [a] else P t) (copyArc o g s c a) ∧ Ext c (copyArc o g s c a) := by
  obtain ⟨h1, e1, j, hj⟩ := visit_inv h a.target
  unfold copyArc
  generalize visit o g c a.target = c1 at h1 e1 hj ⊢
  have hs1 := e1 _ _ hs
  have hn : number c1 s = i := by unfold number; rw [hs1]; rfl
  have hn' : number c1 a.target = j := by unfold number; rw [hj]; rfl
  simp only [hn, hn', reweight_arc]
  refine ⟨⟨h1.zero, h1.inj, h1.lt, h1.surj, ?_, ?_, ?_, ?_, ?_⟩, e1⟩
  · have hi := h1.lt _ _ hs1
    have hj' := h1.lt _ _ hj
    have hlen := h1.len
    simp only [addTransition, if_true, List.length_modify]
    show ((c1.rep.addStateN i).addStateN j).states.length = _
    rw [length_addStateN, length_addStateN]
    omega
  · intro t k ht
    simp only [arcs_addTransition]
    by_cases e : t = s
    · subst e
      rw [hs1] at ht
      cases ht
      rw [if_pos rfl, if_pos rfl]
      exact List.rel_append (h1.arcs _ _ hs1) (.cons ⟨hj, rfl, rfl, rfl⟩ .nil)
    · rw [if_neg e, if_neg]
      · exact h1.arcs _ _ ht
      · rintro rfl
        exact e (h1.inj _ _ _ ht hs1)
  · intro t k ht
    simp only [final_addTransition]
    exact h1.final _ _ ht
  · intro k hk
    simp only [final_addTransition]
    exact h1.out k hk
  · intro t ht
    rw [if_neg]
    · exact h1.none t ht
    · rintro rfl
      rw [hs1] at ht; cases ht

theorem copyArcs_inv {o : Options} {g : Graph} {s : Nat} : ∀ (l : List Arc) {P : Nat → List Arc} {c : Copying} {i : Nat},
    Inv o g P c → mapGet c.rebuilt s = some i →
    Inv o g (fun t => if t = s then P s ++ l else P t) (l.foldl (copyArc o g s) c) ∧ Ext c (l.foldl (copyArc o g s) c)
  | [], P, c, i, h, _ => by
    refine ⟨?_, fun _ _ h => h⟩
    have : (fun t => if t = s then P s ++ [] else P t) = P := by
      funext t
      by_cases e : t = s
      · rw [if_pos e, List.append_nil, e]
      · rw [if_neg e]
    rw [this]; exact h
  | a :: l, P, c, i, h, hs => by
    obtain ⟨h1, e1⟩ := copyArc_inv h hs a
    obtain ⟨h2, e2⟩ := copyArcs_inv l h1 (e1 _ _ hs)
    refine ⟨?_, fun _ _ h => e2 _ _ (e1 _ _ h)⟩
    have : (fun t => if t = s then (if s = s then P s ++ [a] else P s) ++ l else if t = s then P s ++ [a] else P t) =
        fun t => if t = s then P s ++ a :: l else P t := by
      funext t
      by_cases e : t = s
      · simp [e]
      · simp [e]
    rw [this] at h2
    exact h2

theorem copyStates_inv {o : Options} {g : Graph} : ∀ (ls : List (List Arc)) (s : Nat) (c : Copying),
    g.states.drop s = ls → Inv o g (fun t => if t < s then g.arcs t else []) c →
    (∀ t < s, ∃ i, mapGet c.rebuilt t = some i) →
    Inv o g g.arcs (copyStates o g s ls c) ∧
      ∀ t < g.states.length, ∃ i, mapGet (copyStates o g s ls c).rebuilt t = some i
  | [], s, c, hd, h, hm => by
    have hle : g.states.length ≤ s := List.drop_eq_nil_iff.1 hd
    have : (fun t => if t < s then g.arcs t else []) = g.arcs := by
      funext t
      by_cases e : t < s
      · rw [if_pos e]
      · rw [if_neg e, arcs_eq_nil g (by omega)]
    rw [this] at h
    exact ⟨h, fun t ht => hm t (by omega)⟩
  | l :: ls, s, c, hd, h, hm => by
    have hl : g.arcs s = l := by
      have : g.states[s]? = some l := by
        have := congrArg (·[0]?) hd
        simpa using this
      unfold arcs; rw [this]; rfl
    have hd' : g.states.drop (s + 1) = ls := by
      rw [← List.tail_drop, hd]; rfl
    obtain ⟨h1, e1, i, hi⟩ := visit_inv h s
    obtain ⟨h2, e2⟩ := copyArcs_inv l h1 hi
    have : (fun t => if t = s then (if s < s then g.arcs s else []) ++ l else if t < s then g.arcs t else []) =
        fun t => if t < s + 1 then g.arcs t else [] := by
      funext t
      by_cases e : t = s
      · subst e; simp [hl]
      · by_cases e' : t < s
        · simp [e, e', Nat.lt_succ_of_lt e']
        · have : ¬ t < s + 1 := by omega
          simp [e, e', this]
    rw [this] at h2
    refine copyStates_inv ls (s + 1) _ hd' h2 fun t ht => ?_
    rcases Nat.lt_succ_iff_lt_or_eq.1 ht with ht | rfl
    · obtain ⟨k, hk⟩ := hm t ht
      exact ⟨k, e2 _ _ (e1 _ _ hk)⟩
    · exact ⟨i, e2 _ _ hi⟩

theorem start_inv (o : Options) (g : Graph) :
    Inv o g (fun t => if t < 0 then g.arcs t else []) ⟨copyFinal o g 0 0 Graph.init, [(0, 0)], 1⟩ := by
  have hg : ∀ s i, mapGet [((0 : Nat), (0 : Nat))] s = some i ↔ s = 0 ∧ i = 0 := by
    intro s i
    unfold mapGet
    by_cases h : s = 0
    · subst h; simp [eq_comm]
    · simp [h, Ne.symm h]
  have hf : ∀ i, (copyFinal o g 0 0 Graph.init).final i = if i = 0 then (g.final 0).map (newEnd o) else none := by
    intro i
    rw [final_copyFinal _ _ _ _ _ _ rfl]
    rfl
  refine ⟨(hg 0 0).2 ⟨rfl, rfl⟩, ?_, ?_, ?_, ?_, ?_, ?_, ?_, ?_⟩
  · intro s t i h1 h2
    rw [((hg _ _).1 h1).1, ((hg _ _).1 h2).1]
  · intro s i h
    rw [((hg _ _).1 h).2]; exact Nat.one_pos
  · intro i hi
    exact ⟨0, (hg _ _).2 ⟨rfl, by simp only at hi; omega⟩⟩
  · simp only
    rw [length_copyFinal _ _ _ _ _ (by simp [Graph.init])]
    rfl
  · intro s i h
    simp only [arcs_copyFinal, Nat.not_lt_zero, if_false]
    rw [((hg _ _).1 h).2]
    exact .nil
  · intro s i h
    obtain ⟨rfl, rfl⟩ := (hg _ _).1 h
    simp only [hf, if_true]
  · intro i hi
    simp only at hi
    simp only [hf]
    rw [if_neg (by omega)]
  · intro s _
    simp

/-! ## Paths -/

theorem forall₂_left {α β : Type} {R : α → β → Prop} {l : List α} {k : List β} (h : List.Forall₂ R l k) {a : α} (ha : a ∈ l) :
    ∃ b ∈ k, R a b := by
  induction h with
  | nil => cases ha
  | cons h1 _ ih =>
    rcases List.mem_cons.1 ha with rfl | ha
    · exact ⟨_, List.mem_cons_self .., h1⟩
    · obtain ⟨b, hb, h⟩ := ih ha
      exact ⟨b, List.mem_cons_of_mem _ hb, h⟩

theorem forall₂_right {α β : Type} {R : α → β → Prop} {l : List α} {k : List β} (h : List.Forall₂ R l k) {b : β} (hb : b ∈ k) :
    ∃ a ∈ l, R a b := by
  induction h with
  | nil => cases hb
  | cons h1 _ ih =>
    rcases List.mem_cons.1 hb with rfl | hb
    · exact ⟨_, List.mem_cons_self .., h1⟩
    · obtain ⟨a, ha, h⟩ := ih hb
      exact ⟨a, List.mem_cons_of_mem _ ha, h⟩

/-- The symbols stay, and the weight changes. -/
noncomputable def newStep (o : Options) (p : Sym × Sym × Int) : Sym × Sym × Int := (p.1, p.2.1, newArc o p.1 p.2.1 p.2.2)

theorem walk_copy {o : Options} {g : Graph} {c : Copying} (h : Inv o g g.arcs c) {s q : Nat} {l : List (Sym × Sym × Int)}
    (hw : Walk g s l q) : ∀ i, mapGet c.rebuilt s = some i →
    ∃ j, mapGet c.rebuilt q = some j ∧ Walk c.rep i (l.map (newStep o)) j := by
  induction hw with
  | nil s => exact fun i hi => ⟨i, hi, .nil i⟩
  | @cons s q a l ha _ ih =>
    intro i hi
    obtain ⟨b, hb, h1, h2, h3, h4⟩ := forall₂_left (h.arcs s i hi) ha
    obtain ⟨j, hj, hw⟩ := ih _ h1
    refine ⟨j, hj, ?_⟩
    have : newStep o (a.inp, a.out, a.weight) = (b.inp, b.out, b.weight) := by rw [h2, h3, h4]; rfl
    rw [List.map_cons, this]
    exact .cons hb hw

theorem walk_back {o : Options} {g : Graph} {c : Copying} (h : Inv o g g.arcs c) {i j : Nat} {l' : List (Sym × Sym × Int)}
    (hw : Walk c.rep i l' j) : ∀ s, mapGet c.rebuilt s = some i →
    ∃ l q, mapGet c.rebuilt q = some j ∧ Walk g s l q ∧ l' = l.map (newStep o) := by
  induction hw with
  | nil i => exact fun s hs => ⟨[], s, hs, .nil s, rfl⟩
  | @cons i j b l hb _ ih =>
    intro s hs
    obtain ⟨a, ha, h1, h2, h3, h4⟩ := forall₂_right (h.arcs s i hs) hb
    obtain ⟨l, q, hq, hw, e⟩ := ih _ h1
    refine ⟨(a.inp, a.out, a.weight) :: l, q, hq, .cons ha hw, ?_⟩
    have : newStep o (a.inp, a.out, a.weight) = (b.inp, b.out, b.weight) := by rw [h2, h3, h4]; rfl
    rw [List.map_cons, this, e]

/-- **C93.**  Reweighting keeps all paths with their symbols; a weight that matches becomes BVAL * FNAME(w) + AVAL, and any other
stays.  The result is well formed. -/
theorem C93_reweight (o : Options) (g : Graph) :
    (∀ l' f', Takes (doReweight o g) l' f' ↔
      ∃ l f, Takes g l f ∧ l' = l.map (fun p => (p.1, p.2.1, newArc o p.1 p.2.1 p.2.2)) ∧ f' = newEnd o f) ∧
    WF (doReweight o g) := by
  obtain ⟨h, hall⟩ := copyStates_inv g.states 0 _ rfl (start_inv o g) (fun _ h => absurd h (Nat.not_lt_zero _))
  unfold doReweight
  generalize copyStates o g 0 g.states ⟨copyFinal o g 0 0 Graph.init, [(0, 0)], 1⟩ = c at h hall ⊢
  refine ⟨fun l' f' => ⟨?_, ?_⟩, ⟨?_, ?_, ?_⟩⟩
  · rintro ⟨j, hw, hf⟩
    obtain ⟨l, q, hq, hw', e⟩ := walk_back h hw 0 h.zero
    rw [h.final q j hq, Option.map_eq_some_iff] at hf
    obtain ⟨f, hf, e'⟩ := hf
    exact ⟨l, f, ⟨q, hw', hf⟩, e, e'.symm⟩
  · rintro ⟨l, f, ⟨q, hw, hf⟩, rfl, rfl⟩
    obtain ⟨j, hj, hw'⟩ := walk_copy h hw 0 h.zero
    exact ⟨j, hw', by rw [h.final q j hj, hf]; rfl⟩
  · rw [h.len]; exact h.lt _ _ h.zero
  · intro i b hb
    rw [h.len]
    obtain ⟨s, hs⟩ := h.surj i (h.len ▸ lt_of_mem_arcs hb)
    obtain ⟨a, _, h1, _⟩ := forall₂_right (h.arcs s i hs) hb
    exact h.lt _ _ h1
  · intro i w hw
    rw [h.len]
    rcases Nat.lt_or_ge i c.count with hi | hi
    · exact hi
    · rw [h.out i hi] at hw; cases hw

end Hfst.Reweight
