import Verif.Props.LexcCost

/-!
# C71: inserting the transducers of the regular expressions
-/
namespace Hfst.Lexc
open Hfst.Basic
open Hfst.Basic.Graph (init)

theorem map_append_flatMap_nil {α : Type} (ls : List (List α)) (f : α → List α) (h : ∀ l ∈ ls, ∀ a ∈ l, f a = []) :
    (ls.map fun l => l ++ l.flatMap f) = ls := by
  have : ∀ l ∈ ls, l ++ l.flatMap f = id l := by
    intro l hl
    have : l.flatMap f = [] := by rw [List.flatMap_eq_nil_iff]; exact h l hl
    simp [this]
  rw [List.map_congr_left this, List.map_id]

theorem closed_arc {g : Graph} (hg : Closed g) {l : List Arc} (hl : l ∈ g.states) {a : Arc} (ha : a ∈ l) :
    a.inp ≠ unknown ∧ a.inp ≠ identity ∧ a.out ≠ unknown ∧ a.out ≠ identity := by
  obtain ⟨s, hs, rfl⟩ := List.getElem_of_mem hl
  exact hg a.label ⟨s, a, by simpa [Graph.arcs, List.getElem?_eq_getElem hs] using ha, rfl⟩

theorem harmonizeIdentity_closed {g : Graph} (hg : Closed g) (m : List Sym) : harmonizeIdentity g m = .ok g := by
  unfold harmonizeIdentity
  split
  · rfl
  · rw [if_neg]
    · rw [map_append_flatMap_nil]
      intro l hl a ha
      simp [identityAdds, (closed_arc hg hl ha).2.1]
    · simp only [List.any_eq_true, not_exists, not_and, decide_eq_true_eq]
      intro l hl a ha h
      exact absurd h (closed_arc hg hl ha).2.1

theorem harmonizeUnknown_closed {g : Graph} (hg : Closed g) (m : List Sym) : harmonizeUnknown g m = .ok g := by
  unfold harmonizeUnknown
  split
  · rfl
  · rw [if_neg]
    · rw [map_append_flatMap_nil]
      intro l hl a ha
      have := closed_arc hg hl ha
      simp [unknownAdds, this.1, this.2.2.1]
    · simp only [List.any_eq_true, not_exists, not_and]
      intro l hl a ha h
      have := closed_arc hg hl ha
      simp [unknownBad, this.1, this.2.2.1] at h

/-- A graph with a larger alphabet. -/
def Larger (g g' : Graph) : Prop := g'.states = g.states ∧ g'.finals = g.finals ∧ ∀ x ∈ g.alphabet, x ∈ g'.alphabet

theorem Larger.refl (g : Graph) : Larger g g := ⟨rfl, rfl, fun _ h => h⟩

theorem Larger.trans {a b c : Graph} (h : Larger a b) (h' : Larger b c) : Larger a c :=
  ⟨h'.1.trans h.1, h'.2.1.trans h.2.1, fun x hx => h'.2.2 x (h.2.2 x hx)⟩

theorem Larger.arcs {g g' : Graph} (h : Larger g g') (s : Nat) : g'.arcs s = g.arcs s := by simp [Graph.arcs, h.1]

theorem Larger.label {g g' : Graph} (h : Larger g g') (p : Sym × Sym) : HasLabel g' p ↔ HasLabel g p := by
  simp [HasLabel, h.arcs]

theorem Larger.closed {g g' : Graph} (h : Larger g g') (hg : Closed g) : Closed g' := fun p hp => hg p ((h.label p).mp hp)

theorem Larger.path {g g' : Graph} (h : Larger g g') (s : Nat) (l : List (Sym × Sym)) (w : Int) (q : Nat) :
    Path g' s l w q ↔ Path g s l w q := by
  constructor
  · intro hp
    induction hp with
    | nil s => exact .nil s
    | cons ha _ ih => exact .cons (by rw [h.arcs] at ha; exact ha) ih
  · intro hp
    induction hp with
    | nil s => exact .nil s
    | cons ha _ ih => exact .cons (by rw [h.arcs]; exact ha) ih

theorem Larger.accepts {g g' : Graph} (h : Larger g g') (l : List (Sym × Sym)) (w : Int) : Accepts g' l w ↔ Accepts g l w := by
  simp [Accepts, h.path, Graph.final, h.2.1]

theorem Larger.good {g g' : Graph} (h : Larger g g') (hg : Good g) : Good g' := by
  refine ⟨⟨by rw [h.1]; exact hg.wf.nonempty, ?_, ?_⟩, ?_, ?_⟩
  · intro s a ha; rw [h.1]; rw [h.arcs] at ha; exact hg.wf.targets s a ha
  · intro s w hw; rw [h.1]; simp only [Graph.final, h.2.1] at hw; exact hg.wf.finals s w hw
  · exact hg.alpha.grow h.2.2 (fun s a ha => by rw [h.arcs] at ha; exact .inl ha)
  · unfold FinalMap; rw [h.2.1]; exact hg.finals

theorem larger_addSymbols (g : Graph) (xs : List Sym) : Larger g (g.addSymbols xs) := by
  refine ⟨rfl, rfl, ?_⟩
  intro x hx
  simp only [Graph.addSymbols]
  rw [mem_foldl_setInsert]
  exact .inr hx

theorem harmonize_closed {g h : Graph} (hg : Closed g) (hh : Closed h) :
    ∃ g' h', harmonize g h = .ok (g', h') ∧ Larger g g' ∧ Larger h h' := by
  unfold harmonize
  simp only [harmonizeIdentity_closed hg, harmonizeIdentity_closed hh, harmonizeUnknown_closed hg,
    harmonizeUnknown_closed hh, Outcome.bind]
  exact ⟨_, _, rfl, larger_addSymbols _ _, larger_addSymbols _ _⟩

theorem harmonizeAll_closed (xs : List Sym) (g : Graph) (m : List (Sym × Graph)) (hg : Closed g)
    (hm : ∀ x h, mapGet m x = some h → Closed h) (hx : ∀ x ∈ xs, (mapGet m x).isSome = true) :
    ∃ g' m', harmonizeAll xs g m = .ok (g', m') ∧ Larger g g' ∧ (∀ x, mapGet m x = none → mapGet m' x = none) ∧
      ∀ x h, mapGet m x = some h → ∃ h', mapGet m' x = some h' ∧ Larger h h' := by
  induction xs generalizing g m with
  | nil => exact ⟨g, m, rfl, Larger.refl g, fun _ h => h, fun x h hx => ⟨h, hx, Larger.refl h⟩⟩
  | cons x xs ih =>
    obtain ⟨h, hh⟩ := Option.isSome_iff_exists.mp (hx x (by simp))
    obtain ⟨g1, h1, e, l1, l2⟩ := harmonize_closed hg (hm x h hh)
    have hput : ∀ y, mapGet (mapPut m x h1) y = if y = x then some h1 else mapGet m y := fun y => by
      rw [mapGet_put]
    obtain ⟨g', m', e', l', n', s'⟩ := ih g1 (mapPut m x h1) (l1.closed hg)
      (by
        intro y k hk
        rw [hput] at hk
        split at hk
        · cases hk; exact l2.closed (hm x h hh)
        · exact hm y k hk)
      (by
        intro y hy
        rw [hput]
        split
        · rfl
        · exact hx y (by simp [hy]))
    refine ⟨g', m', ?_, l1.trans l', ?_, ?_⟩
    · unfold harmonizeAll
      simp only [hh, e, Outcome.bind, e']
    · intro y hy
      refine n' y ?_
      rw [hput, if_neg]
      · exact hy
      · rintro rfl; rw [hh] at hy; cases hy
    · intro y k hk
      by_cases hyx : y = x
      · subst hyx
        rw [hh] at hk
        cases hk
        obtain ⟨h', e1, e2⟩ := s' y h1 (by rw [hput, if_pos rfl])
        exact ⟨h', e1, l2.trans e2⟩
      · exact s' y k (by rw [hput, if_neg hyx]; exact hk)

/-- `Put m l l' v`: `l'` is `l` with every pair that has a transducer in `m` replaced by a sequence of that transducer, for at most
the weights whose sum is `v`. -/
inductive Put (m : List (Sym × Graph)) : List (Sym × Sym) → List (Sym × Sym) → Int → Prop
  | nil : Put m [] [] 0
  | keep {p : Sym × Sym} {l l' : List (Sym × Sym)} {v : Int} :
      mapGet m p.1 = none → Put m l l' v → Put m (p :: l) (p :: l') v
  | put {p : Sym × Sym} {h : Graph} {x l l' : List (Sym × Sym)} {u v : Int} :
      mapGet m p.1 = some h → Cost h x u → Put m l l' v → Put m (p :: l) (x ++ l') (u + v)

theorem put_of_spliced {m : List (Sym × Graph)} {K : Sym × Sym → Option Graph} (he : mapGet m epsilon = none)
    (hn : ∀ p, K p = none → mapGet m p.1 = none)
    (hs : ∀ p h, K p = some h → ∃ h0, mapGet m p.1 = some h0 ∧ ∀ l w, Accepts h l w → Accepts h0 l w)
    {l l' : List (Sym × Sym)} {v : Int} (h : Spliced K l l' v) : Put m (strip l) (strip l') v := by
  induction h with
  | nil => exact .nil
  | @keep p l l' v hk _ ih =>
    by_cases hp : p = (epsilon, epsilon)
    · subst hp; rw [strip_cons_eps, strip_cons_eps]; exact ih
    · rw [strip_cons hp, strip_cons hp]; exact .keep (hn p hk) ih
  | @put p h x l l' u v hk ha _ ih =>
    obtain ⟨h0, e, hacc⟩ := hs p h hk
    have hp : p ≠ (epsilon, epsilon) := by rintro rfl; rw [he] at e; cases e
    rw [strip_cons hp, strip_cons_eps, strip_append, strip_cons_eps]
    exact .put e ⟨x, u, hacc _ _ ha, rfl, Int.le_refl _⟩ ih

theorem spliced_of_put {m : List (Sym × Graph)} {K : Sym × Sym → Option Graph} (he : mapGet m epsilon = none)
    (hn : ∀ p, mapGet m p.1 = none → K p = none)
    (hs : ∀ p h0, mapGet m p.1 = some h0 → ∃ h, K p = some h ∧ ∀ l w, Accepts h0 l w → Accepts h l w)
    (l : List (Sym × Sym)) {l' : List (Sym × Sym)} {v : Int} (h : Put m (strip l) l' v) :
    ∃ l'' v', Spliced K l l'' v' ∧ strip l'' = strip l' ∧ v' ≤ v := by
  induction l generalizing l' v with
  | nil =>
    cases h
    exact ⟨[], 0, .nil, rfl, Int.le_refl _⟩
  | cons p l ih =>
    by_cases hp : p = (epsilon, epsilon)
    · subst hp
      rw [strip_cons_eps] at h
      obtain ⟨l'', v', h1, h2, h3⟩ := ih h
      exact ⟨(epsilon, epsilon) :: l'', v', .keep (hn _ he) h1, by rw [strip_cons_eps]; exact h2, h3⟩
    · rw [strip_cons hp] at h
      cases h with
      | keep hk h =>
        obtain ⟨l'', v', h1, h2, h3⟩ := ih h
        exact ⟨p :: l'', v', .keep (hn _ hk) h1, by rw [strip_cons hp, strip_cons hp, h2], h3⟩
      | @put _ h0 x _ l' u v hk hc h =>
        obtain ⟨l'', v', h1, h2, h3⟩ := ih h
        obtain ⟨h, e, hacc⟩ := hs p h0 hk
        obtain ⟨x', u', ha, rfl, hu⟩ := hc
        refine ⟨_, u' + v', .put e (hacc _ _ ha) h1, ?_, by omega⟩
        rw [strip_cons_eps, strip_append, strip_cons_eps, strip_append, strip_strip, h2]

/-- `substitute(SubstMap, true)` on graphs without unknown and identity symbols. -/
theorem splice_spec {g : Graph} (hg : Good g) (hc : Closed g) (m : List (Sym × Graph))
    (hm : ∀ x h, mapGet m x = some h → Good h ∧ Closed h) (hv : ∀ e ∈ m, e.1 ≠ []) (he : mapGet m epsilon = none)
    (hone : ∀ p, HasLabel g p → (mapGet m p.1).isSome = true ∨ (mapGet m p.2).isSome = true → p.1 = p.2) :
    ∃ g', substituteHarmonized g m = .ok g' ∧ Good g' ∧
      ∀ l w, Cost g' l w ↔ ∃ l₀ w₀ v, Cost g l₀ w₀ ∧ Put m l₀ l v ∧ w₀ + v ≤ w := by
  have putstrip : ∀ {l₀ l : List (Sym × Sym)} {v : Int}, Put m l₀ l v → strip l₀ = l₀ → strip l = l := by
    intro l₀ l v h
    induction h with
    | nil => intro _; rfl
    | @keep p l l' v _ _ ih =>
      intro hs
      by_cases hp : p = (epsilon, epsilon)
      · subst hp
        rw [strip_cons_eps] at hs
        have h1 : (strip l).length ≤ l.length := List.length_filter_le _ _
        rw [hs] at h1
        simp at h1
        omega
      · rw [strip_cons hp] at hs ⊢
        rw [ih (List.cons.inj hs).2]
    | @put p h x l l' u v hk hx _ ih =>
      intro hs
      have hp : p ≠ (epsilon, epsilon) := by rintro rfl; rw [he] at hk; cases hk
      rw [strip_cons hp] at hs
      rw [strip_append, hx.stripped, ih (List.cons.inj hs).2]
  have finish : ∀ {g' : Graph} {K : Sym × Sym → Option Graph}, (∀ p, K p = none ↔ mapGet m p.1 = none) →
      (∀ p h, K p = some h → ∃ h0, mapGet m p.1 = some h0 ∧ Larger h0 h) →
      (∀ l' w', Accepts g' l' w' ↔ ∃ l w v, Accepts g l w ∧ Spliced K l l' v ∧ w' = w + v) →
      ∀ l w, Cost g' l w ↔ ∃ l₀ w₀ v, Cost g l₀ w₀ ∧ Put m l₀ l v ∧ w₀ + v ≤ w := by
    intro g' K hn hs hacc l w
    constructor
    · rintro ⟨l', w', ha, rfl, hw⟩
      obtain ⟨l₀, w₀, v, h0, hsp, rfl⟩ := (hacc _ _).mp ha
      exact ⟨strip l₀, w₀, v, ⟨l₀, w₀, h0, rfl, Int.le_refl _⟩, put_of_spliced he (fun p h => (hn p).mp h)
        (fun p h hk => by
          obtain ⟨h0, e, hl⟩ := hs p h hk
          exact ⟨h0, e, fun l w => (hl.accepts l w).mp⟩) hsp, hw⟩
    · rintro ⟨l₀, w₀, v, h0, hp, hw⟩
      have hst := putstrip hp h0.stripped
      obtain ⟨l1, w1, ha, rfl, hw1⟩ := h0
      obtain ⟨l'', v', h1, h2, h3⟩ := spliced_of_put (K := K) he (fun p h => (hn p).mpr h)
        (fun p h0 hk => by
          cases hK : K p with
          | none => rw [(hn p).mp hK] at hk; cases hk
          | some h =>
            obtain ⟨h0', e, hl⟩ := hs p h hK
            rw [hk] at e
            cases e
            exact ⟨h, rfl, fun l w => (hl.accepts l w).mpr⟩) l1 hp
      exact ⟨l'', w1 + v', (hacc _ _).mpr ⟨l1, w1, v', ha, h1, rfl⟩, by rw [h2, hst], by omega⟩
  unfold substituteHarmonized
  rw [if_neg (by
    simp only [List.any_eq_true, not_exists, not_and]
    intro e h
    simp [Graph.isValidSymbol, hv e h])]
  split
  · rename_i hno
    refine ⟨g, rfl, hg, finish (K := fun p => mapGet m p.1) (fun p => Iff.rfl) (fun p h hk => ⟨h, hk, Larger.refl h⟩) ?_⟩
    refine spliced_none ?_
    intro s a ha
    have := (hg.alpha.arcs s a ha).1
    cases hl : mapGet m a.label.1 with
    | none => rfl
    | some k =>
      exfalso
      simp only [Bool.not_eq_true', List.any_eq_false] at hno
      exact hno _ (mapGet_mem hl) (decide_eq_true this)
  · rw [if_neg (by
      rw [any_arc]
      rintro ⟨s, a, ha, h⟩
      simp only [Bool.and_eq_true, Bool.or_eq_true, decide_eq_true_eq] at h
      exact h.2 (hone a.label ⟨s, a, ha, rfl⟩ h.1))]
    dsimp only
    generalize hg1 : ({ g with
      states := g.states.map fun l => l.filter fun a => (mapGet m a.inp).isNone
      alphabet := _ } : Graph) = g1
    have harcs1 : ∀ s a, a ∈ g1.arcs s ↔ a ∈ g.arcs s ∧ mapGet m a.inp = none := by
      intro s a
      rw [← hg1, Graph.arcs_map g _ (by simp), List.mem_filter]
      simp
    have hfin1 : g1.finals = g.finals := by rw [← hg1]
    have hlen1 : g1.states.length = g.states.length := by rw [← hg1]; simp
    have hc1 : Closed g1 := by
      rintro p ⟨s, a, ha, rfl⟩
      exact hc _ ⟨s, a, ((harcs1 s a).mp ha).1, rfl⟩
    have hgood1 : Good g1 := by
      refine ⟨⟨by rw [hlen1]; exact hg.wf.nonempty, ?_, ?_⟩, ⟨?_, ?_, ?_, ?_⟩, by unfold FinalMap; rw [hfin1]; exact hg.finals⟩
      · intro s a ha; rw [hlen1]; exact hg.wf.targets s a ((harcs1 s a).mp ha).1
      · intro s w h; rw [hlen1]; simp only [Graph.final, hfin1] at h; exact hg.wf.finals s w h
      · intro s a ha
        obtain ⟨ha, hk⟩ := (harcs1 s a).mp ha
        have hne : ∀ x, mapGet m x = none → x ∉ (((g.states.flatten.filter fun a => (mapGet m a.inp).isSome).map
            (fun a : Arc => a.inp)).eraseDups) := by
          intro x hx hm'
          rw [List.mem_eraseDups] at hm'
          obtain ⟨b, hb, rfl⟩ := List.mem_map.mp hm'
          have := (List.mem_filter.mp hb).2
          rw [hx] at this
          cases this
        have hko : mapGet m a.out = none := by
          cases hh : mapGet m a.out with
          | none => rfl
          | some k =>
            have := hone a.label ⟨s, a, ha, rfl⟩ (.inr (by simp [Arc.label, hh]))
            simp only [Arc.label] at this
            rw [this, hh] at hk
            cases hk
        have hal := hg.alpha.arcs s a ha
        rw [← hg1]
        simp only [List.mem_filter]
        refine ⟨⟨hal.1, ?_⟩, ⟨hal.2, ?_⟩⟩
        · rw [decide_eq_true (hne _ hk)]; rfl
        · rw [decide_eq_true (hne _ hko)]; rfl
      · rw [← hg1]; simp [hg.alpha.eps]
      · rw [← hg1]; simp [hg.alpha.unk]
      · rw [← hg1]; simp [hg.alpha.idn]
    obtain ⟨g2, m2, e2, l2, n2, s2⟩ := harmonizeAll_closed
      (((g.states.flatten.filter fun a => (mapGet m a.inp).isSome).map (·.inp)).eraseDups) g1 m hc1
      (fun x h hx => (hm x h hx).2)
      (by
        intro x hx
        rw [List.mem_eraseDups] at hx
        obtain ⟨b, hb, rfl⟩ := List.mem_map.mp hx
        exact (List.mem_filter.mp hb).2)
    rw [e2]
    simp only [Outcome.bind]
    refine ⟨_, rfl, ?_, ?_⟩
    · have hgood2 := l2.good hgood1
      exact ⟨hgood2.wf.foldSubst _ (fun x => (mapGet m2 x).getD init), hgood2.alpha.foldSubst _ (fun x => (mapGet m2 x).getD init), by
        unfold FinalMap
        rw [finals_foldSubst (fun x => (mapGet m2 x).getD init)]
        exact hgood2.finals⟩
    · have hK : ∀ p : Sym × Sym, (mapGet m p.1 = none ∧ mapGet m2 p.1 = none) ∨
          ∃ h h', mapGet m p.1 = some h ∧ mapGet m2 p.1 = some h' ∧ Larger h h' := by
        intro p
        cases hh : mapGet m p.1 with
        | none => exact .inl ⟨rfl, n2 _ hh⟩
        | some h =>
          obtain ⟨h', e, l⟩ := s2 _ h hh
          exact .inr ⟨h, h', rfl, e, l⟩
      refine finish (K := fun p => mapGet m2 p.1) ?_ ?_ ?_
      · intro p
        rcases hK p with ⟨h1, h2⟩ | ⟨h, h', h1, h2, _⟩
        · simp [h1, h2]
        · simp [h1, h2]
      · intro p k hk
        rcases hK p with ⟨h1, h2⟩ | ⟨h, h', h1, h2, l⟩
        · rw [h2] at hk; cases hk
        · rw [h2] at hk; cases hk; exact ⟨h, h1, l⟩
      · refine splice_accepts hg.wf (fun x => (mapGet m2 x).getD init) _ (fun p => mapGet m2 p.1) ?_ ?_ ?_ ?_ ?_
        · intro a
          rcases hK a.label with ⟨h1, h2⟩ | ⟨h, h', h1, h2, _⟩
          · simp only [Arc.label] at h1 h2 ⊢
            simp [h1, h2]
          · simp only [Arc.label] at h1 h2 ⊢
            simp [h1, h2]
        · intro s a _ x hx
          simp only [Option.map_eq_some_iff] at hx
          obtain ⟨h, h1, rfl⟩ := hx
          obtain ⟨h', e, l⟩ := s2 _ h h1
          have := l.good (hm _ h h1).1
          simp only [e, Option.getD_some]
          exact ⟨this.wf, this.finals⟩
        · intro s a
          rw [l2.arcs, harcs1]
          rcases hK a.label with ⟨h1, h2⟩ | ⟨h, h', h1, h2, _⟩
          · simp only [Arc.label] at h1 h2 ⊢
            simp [h1, h2]
          · simp only [Arc.label] at h1 h2 ⊢
            simp [h1, h2]
        · intro s; simp [Graph.final, l2.2.1, hfin1]
        · rw [l2.1, hlen1]

end Hfst.Lexc
