import Verif.Props.GraphPaths

/-!
# C23, C53, C54: splicing one transducer into another
-/
namespace Hfst.Basic
open Graph

/-! ## A copy of `h` attached between two states -/

/-- Paths that may also use extra edges `V s t l w`. -/
inductive GPath (g : Graph) (V : Nat → Nat → List (Sym × Sym) → Int → Prop) :
    Nat → List (Sym × Sym) → Int → Nat → Prop
  | nil (s : Nat) : GPath g V s [] 0 s
  | cons {s q : Nat} {a : Arc} {l : List (Sym × Sym)} {w : Int} :
      a ∈ g.arcs s → GPath g V a.target l w q → GPath g V s ((a.inp, a.out) :: l) (a.weight + w) q
  | extra {s t q : Nat} {m l : List (Sym × Sym)} {v w : Int} :
      V s t m v → GPath g V t l w q → GPath g V s (m ++ l) (v + w) q

theorem GPath.append {g : Graph} {V : Nat → Nat → List (Sym × Sym) → Int → Prop} {s t q : Nat}
    {l l' : List (Sym × Sym)} {w w' : Int} (h : GPath g V s l w t) (h' : GPath g V t l' w' q) :
    GPath g V s (l ++ l') (w + w') q := by
  induction h with
  | nil s => simpa using h'
  | cons ha _ ih => rw [List.cons_append, Int.add_assoc]; exact .cons ha (ih h')
  | extra hv _ ih => rw [List.append_assoc, Int.add_assoc]; exact .extra hv (ih h')

theorem GPath.mono {g : Graph} {V V' : Nat → Nat → List (Sym × Sym) → Int → Prop} {s q : Nat}
    {l : List (Sym × Sym)} {w : Int} (hV : ∀ s t m v, V s t m v → V' s t m v) (h : GPath g V s l w q) :
    GPath g V' s l w q := by
  induction h with
  | nil s => exact .nil s
  | cons ha _ ih => exact .cons ha ih
  | extra hv _ ih => exact .extra (hV _ _ _ _ hv) ih

theorem gpath_iff_path {g : Graph} {s q : Nat} {l : List (Sym × Sym)} {w : Int} :
    GPath g (fun _ _ _ _ => False) s l w q ↔ Path g s l w q := by
  constructor
  · intro h
    induction h with
    | nil s => exact .nil s
    | cons ha _ ih => exact .cons ha ih
    | extra hv _ _ => exact hv.elim
  · intro h
    induction h with
    | nil s => exact .nil s
    | cons ha _ ih => exact .cons ha ih

/-- `g1` is `g` with a copy of `h` placed at number `o`, an epsilon transition of weight `wt` from `src` to the copy of
the initial state, and epsilon transitions with the final weights from the copies of the final states to `tgt`. -/
structure Gadget (g g1 h : Graph) (o src tgt : Nat) (wt : Int) : Prop where
  wf : WF g
  wfh : WF h
  start : o = g.states.length
  src_lt : src < o
  tgt_lt : tgt < o
  arcs : ∀ s a, a ∈ g1.arcs s ↔ a ∈ g.arcs s ∨ (s = src ∧ a = ⟨o, epsilon, epsilon, wt⟩) ∨
    (∃ t b, b ∈ h.arcs t ∧ s = t + o ∧ a = { b with target := b.target + o }) ∨
    (∃ t f, h.final t = some f ∧ s = t + o ∧ a = ⟨tgt, epsilon, epsilon, f⟩)
  final : ∀ s, g1.final s = g.final s

/-- What going through the copy of `h` contributes. -/
def Through (h : Graph) (src tgt : Nat) (wt : Int) (s t : Nat) (m : List (Sym × Sym)) (v : Int) : Prop :=
  s = src ∧ t = tgt ∧ ∃ m0 v0, Accepts h m0 v0 ∧ m = (epsilon, epsilon) :: (m0 ++ [(epsilon, epsilon)]) ∧ v = wt + v0

theorem Gadget.gpath {g g1 h : Graph} {o src tgt : Nat} {wt : Int} (G : Gadget g g1 h o src tgt wt)
    {V : Nat → Nat → List (Sym × Sym) → Int → Prop} (hV : ∀ s t m v, V s t m v → s < o ∧ t < o)
    {s q : Nat} {l : List (Sym × Sym)} {w : Int} (hs : s < o) (hq : q < o) :
    GPath g1 V s l w q ↔ GPath g (fun s t m v => V s t m v ∨ Through h src tgt wt s t m v) s l w q := by
  constructor
  · intro hp
    suffices (s < o → GPath g (fun s t m v => V s t m v ∨ Through h src tgt wt s t m v) s l w q) ∧
        (∀ t, s = t + o → t < h.states.length → ∃ m0 v0 r f l2 w2, Path h t m0 v0 r ∧ h.final r = some f ∧
          l = m0 ++ (epsilon, epsilon) :: l2 ∧ w = v0 + f + w2 ∧
          GPath g (fun s t m v => V s t m v ∨ Through h src tgt wt s t m v) tgt l2 w2 q) from this.1 hs
    clear hs
    induction hp with
    | nil s => exact ⟨fun _ => .nil s, fun t e _ => by omega⟩
    | @cons s q a l w ha _ ih =>
      obtain ⟨ih1, ih2⟩ := ih hq
      rw [G.arcs] at ha
      constructor
      · intro hs
        rcases ha with ha | ⟨rfl, rfl⟩ | ⟨t, b, _, e, _⟩ | ⟨t, f, _, e, _⟩
        · exact .cons ha (ih1 (by rw [G.start]; exact G.wf.targets _ _ ha))
        · obtain ⟨m0, v0, r, f, l2, w2, h1, h2, rfl, rfl, h3⟩ := ih2 0 (by simp) G.wfh.nonempty
          have := GPath.extra (g := g) (V := fun s' t m v => V s' t m v ∨ Through h s tgt wt s' t m v)
            (.inr ⟨rfl, rfl, m0, v0 + f, ⟨r, v0, f, h1, h2, rfl⟩, rfl, rfl⟩) h3
          have e1 : (epsilon, epsilon) :: (m0 ++ [(epsilon, epsilon)]) ++ l2 =
            (epsilon, epsilon) :: (m0 ++ ((epsilon, epsilon) :: l2)) := by simp
          have e2 : wt + (v0 + f) + w2 = wt + (v0 + f + w2) := by omega
          rw [e1, e2] at this
          exact this
        · omega
        · omega
      · intro t hst ht
        rcases ha with ha | ⟨rfl, rfl⟩ | ⟨t', b, hb, e, rfl⟩ | ⟨t', f, hf, e, rfl⟩
        · have := lt_of_mem_arcs ha; have := G.start; omega
        · have := G.src_lt; omega
        · have : t' = t := by omega
          subst this
          obtain ⟨m0, v0, r, f, l2, w2, h1, h2, rfl, rfl, h3⟩ := ih2 b.target rfl (G.wfh.targets _ _ hb)
          exact ⟨_, _, r, f, l2, w2, .cons hb h1, h2, by simp, by simp only []; omega, h3⟩
        · have : t' = t := by omega
          subst this
          exact ⟨[], 0, t', f, l, w, .nil t', hf, by simp, by simp, ih1 G.tgt_lt⟩
    | @extra s t q m l v w hv _ ih =>
      obtain ⟨ih1, ih2⟩ := ih hq
      have := hV _ _ _ _ hv
      exact ⟨fun _ => .extra (.inl hv) (ih1 this.2), fun t e _ => by omega⟩
  · intro hp
    have copy : ∀ {t m v r}, Path h t m v r → GPath g1 V (t + o) m v (r + o) := by
      intro t m v r hp
      induction hp with
      | nil t => exact .nil _
      | @cons t r b l w hb _ ih =>
        exact GPath.cons (a := { b with target := b.target + o })
          ((G.arcs _ _).mpr (.inr (.inr (.inl ⟨t, b, hb, rfl, rfl⟩)))) ih
    induction hp with
    | nil s => exact .nil s
    | @cons s q a l w ha _ ih =>
      exact .cons ((G.arcs _ _).mpr (.inl ha)) (ih (by rw [G.start]; exact G.wf.targets _ _ ha) hq)
    | @extra s t q m l v w hv _ ih =>
      rcases hv with hv | ⟨rfl, rfl, m0, v0, ⟨r, u, f, h1, h2, rfl⟩, rfl, rfl⟩
      · exact .extra hv (ih (hV _ _ _ _ hv).2 hq)
      · have h3 := ih G.tgt_lt hq
        have hexit : GPath g1 V (r + o) ((epsilon, epsilon) :: l) (f + w) q :=
          GPath.cons (a := ⟨t, epsilon, epsilon, f⟩) ((G.arcs _ _).mpr (.inr (.inr (.inr ⟨r, f, h2, rfl, rfl⟩)))) h3
        have hin := copy h1
        rw [Nat.zero_add] at hin
        have := GPath.cons (a := ⟨o, epsilon, epsilon, wt⟩) ((G.arcs _ _).mpr (.inr (.inl ⟨rfl, rfl⟩))) (hin.append hexit)
        have e1 : (epsilon, epsilon) :: (m0 ++ [(epsilon, epsilon)]) ++ l =
          (epsilon, epsilon) :: (m0 ++ ((epsilon, epsilon) :: l)) := by simp
        have e2 : wt + (u + f) + w = wt + (u + (f + w)) := by omega
        rw [e1, e2]
        exact this

/-! ## The splicing functions -/

/-- The final weights form a map: no state number occurs twice (as in the `std::map` of the code). -/
def FinalMap (g : Graph) : Prop := (g.finals.map (·.1)).Nodup

theorem FinalMap.iff {g : Graph} (hg : FinalMap g) (s : Nat) (w : Int) : g.final s = some w ↔ (s, w) ∈ g.finals := by
  refine ⟨mapGet_mem, ?_⟩
  unfold FinalMap at hg
  unfold Graph.final
  generalize g.finals = m at hg
  intro h
  induction m with
  | nil => simp at h
  | cons e m ih =>
    simp only [List.map_cons, List.nodup_cons] at hg
    simp only [mapGet, List.find?_cons]
    rcases List.mem_cons.mp h with rfl | h
    · simp
    · have : e.1 ≠ s := fun e' => hg.1 (e' ▸ List.mem_map.mpr ⟨_, h, rfl⟩)
      simp only [this, decide_false]
      exact ih hg.2 h

theorem addSubstitution_gadget {g h : Graph} (hg : WF g) (hh : WF h) (hm : FinalMap h) (sub : SubstData)
    (h1 : sub.origin < g.states.length) (h2 : sub.target < g.states.length) :
    Gadget g (g.addSubstitution sub h) h g.states.length sub.origin sub.target sub.weight := by
  refine ⟨hg, hh, rfl, h1, h2, ?_, ?_⟩
  · intro s a
    unfold Graph.addSubstitution
    simp only []
    rw [copyFinals_eq, copyArcs_eq, foldl_addTransition_arcs, foldl_addTransition_arcs, arcs_addTransition]
    simp only [arcs_addState, List.mem_append, List.mem_map, List.mem_filter, decide_eq_true_eq, mem_copyList,
      mem_finalList]
    constructor
    · rintro ((h | ⟨e, ⟨⟨i, b, hb, rfl⟩, rfl⟩, rfl⟩) | ⟨e, ⟨⟨f, hf, rfl⟩, rfl⟩, rfl⟩)
      · split at h
        · rename_i e
          rcases List.mem_append.mp h with h | h
          · exact .inl (e ▸ h)
          · simp only [List.mem_singleton] at h
            exact .inr (.inl ⟨e, h⟩)
        · exact .inl h
      · exact .inr (.inr (.inl ⟨i, b, hb, rfl, rfl⟩))
      · exact .inr (.inr (.inr ⟨f.1, f.2, (hm.iff _ _).mpr hf, rfl, rfl⟩))
    · rintro (h | ⟨rfl, rfl⟩ | ⟨t, b, hb, rfl, rfl⟩ | ⟨t, f, hf, rfl, rfl⟩)
      · left; left
        split
        · rename_i e; exact List.mem_append.mpr (.inl (e ▸ h))
        · exact h
      · left; left; simp [Graph.addState]
      · left; right; exact ⟨_, ⟨⟨t, b, hb, rfl⟩, rfl⟩, rfl⟩
      · right; exact ⟨_, ⟨⟨(t, f), (hm.iff _ _).mp hf, rfl⟩, rfl⟩, rfl⟩
  · intro s
    unfold Graph.addSubstitution
    simp only []
    rw [copyFinals_eq, copyArcs_eq, foldl_addTransition_final, foldl_addTransition_final, final_addTransition]
    rfl

theorem length_addSubstitution_ge (g h : Graph) (sub : SubstData) :
    g.states.length ≤ (g.addSubstitution sub h).states.length := by
  unfold Graph.addSubstitution
  simp only []
  rw [copyFinals_eq, copyArcs_eq]
  refine Nat.le_trans ?_ (foldl_addTransition_length_ge _ _).1
  refine Nat.le_trans ?_ (foldl_addTransition_length_ge _ _).1
  rw [length_addTransition, length_addState]
  omega

theorem foldSubst_gpath {β : Type} (f : β → Graph) (n : Nat) (subs : List (SubstData × β)) (g : Graph) (hg : WF g)
    (hn : n ≤ g.states.length)
    (hsub : ∀ e ∈ subs, e.1.origin < n ∧ e.1.target < n ∧ WF (f e.2) ∧ FinalMap (f e.2))
    {V : Nat → Nat → List (Sym × Sym) → Int → Prop} (hV : ∀ s t m v, V s t m v → s < n ∧ t < n)
    {s q : Nat} {l : List (Sym × Sym)} {w : Int} (hs : s < n) (hq : q < n) :
    (GPath (subs.foldl (fun g e => g.addSubstitution e.1 (f e.2)) g) V s l w q ↔
      GPath g (fun s t m v => V s t m v ∨
        ∃ e ∈ subs, Through (f e.2) e.1.origin e.1.target e.1.weight s t m v) s l w q) ∧
    (∀ t, (subs.foldl (fun g e => g.addSubstitution e.1 (f e.2)) g).final t = g.final t) := by
  induction subs generalizing g with
  | nil => simp
  | cons e subs ih =>
    obtain ⟨h1, h2, h3, h4⟩ := hsub e (by simp)
    have G := addSubstitution_gadget hg h3 h4 e.1 (by omega) (by omega)
    have hlen := length_addSubstitution_ge g (f e.2) e.1
    obtain ⟨ih1, ih2⟩ := ih (g.addSubstitution e.1 (f e.2)) (hg.addSubstitution _ _) (by omega)
      (fun e he => hsub e (by simp [he]))
    rw [List.foldl_cons]
    refine ⟨?_, fun t => by rw [ih2, G.final]⟩
    rw [ih1, G.gpath ?_ (by omega) (by omega)]
    · constructor <;>
      · refine GPath.mono ?_
        intro s t m v h
        simp only [List.mem_cons, exists_eq_or_imp] at h ⊢
        grind
    · rintro s t m v (h | ⟨e', he', rfl, rfl, _⟩)
      · have := hV _ _ _ _ h; omega
      · have := hsub e' (by simp [he']); omega

/-- `Spliced K l l' v`: `l'` is `l` where every pair `p` with a transducer `K p` has been replaced by a sequence which
that transducer accepts (written between two epsilon pairs); `v` is the sum of the weights of these sequences. -/
inductive Spliced (K : Sym × Sym → Option Graph) : List (Sym × Sym) → List (Sym × Sym) → Int → Prop
  | nil : Spliced K [] [] 0
  | keep {p : Sym × Sym} {l l' : List (Sym × Sym)} {v : Int} :
      K p = none → Spliced K l l' v → Spliced K (p :: l) (p :: l') v
  | put {p : Sym × Sym} {h : Graph} {m l l' : List (Sym × Sym)} {u v : Int} :
      K p = some h → Accepts h m u → Spliced K l l' v →
      Spliced K (p :: l) ((epsilon, epsilon) :: (m ++ (epsilon, epsilon) :: l')) (u + v)

theorem splice_gpath {g B : Graph} {K : Sym × Sym → Option Graph} {V : Nat → Nat → List (Sym × Sym) → Int → Prop}
    (hB : ∀ s a, a ∈ B.arcs s ↔ a ∈ g.arcs s ∧ K a.label = none)
    (hV : ∀ s t m v, V s t m v ↔ ∃ a h, a ∈ g.arcs s ∧ K a.label = some h ∧ Through h s a.target a.weight s t m v)
    {s q : Nat} {l' : List (Sym × Sym)} {w' : Int} :
    GPath B V s l' w' q ↔ ∃ l w v, Path g s l w q ∧ Spliced K l l' v ∧ w' = w + v := by
  constructor
  · intro hp
    induction hp with
    | nil s => exact ⟨[], 0, 0, .nil s, .nil, by simp⟩
    | @cons s q a l' w' ha _ ih =>
      obtain ⟨l, w, v, h1, h2, rfl⟩ := ih
      obtain ⟨ha, hk⟩ := (hB s a).mp ha
      exact ⟨_, _, v, .cons ha h1, .keep hk h2, by omega⟩
    | @extra s t q m l' v' w' hv _ ih =>
      obtain ⟨l, w, v, h1, h2, rfl⟩ := ih
      obtain ⟨a, h, ha, hk, _, rfl, m0, v0, hacc, rfl, rfl⟩ := (hV _ _ _ _).mp hv
      refine ⟨_, _, v0 + v, .cons ha h1, ?_, by omega⟩
      have := Spliced.put (l := l) hk hacc h2
      simpa [Arc.label] using this
  · rintro ⟨l, w, v, hp, hs, rfl⟩
    induction hs generalizing s w with
    | nil => cases hp; simpa using GPath.nil _
    | keep hk _ ih =>
      cases hp with
      | cons ha hp =>
        have := ih _ hp
        rw [Int.add_assoc]
        exact .cons ((hB _ _).mpr ⟨ha, hk⟩) this
    | @put p h m l l' u v hk hacc _ ih =>
      cases hp with
      | @cons _ _ a _ w ha hp =>
        have := ih _ hp
        have hv := (hV s a.target _ _).mpr ⟨a, h, ha, hk, rfl, rfl, m, u, hacc, rfl, rfl⟩
        have := GPath.extra hv this
        have e1 : (epsilon, epsilon) :: (m ++ [(epsilon, epsilon)]) ++ l' =
          (epsilon, epsilon) :: (m ++ ((epsilon, epsilon) :: l')) := by simp
        have e2 : a.weight + w + (u + v) = a.weight + u + (w + v) := by omega
        rw [e2, ← e1]
        exact this

theorem mem_scheduled {β : Type} (g : Graph) (F : Arc → Option β) (e : SubstData × β) :
    e ∈ g.scheduled F ↔ ∃ s a b, a ∈ g.arcs s ∧ F a = some b ∧ e = (⟨s, a.target, a.weight⟩, b) := by
  unfold Graph.scheduled
  simp only [List.mem_flatMap, List.mem_filterMap, Prod.exists, List.mem_zipIdx_iff_getElem?, Option.map_eq_some_iff]
  constructor
  · rintro ⟨l, i, hl, a, ha, b, hb, rfl⟩
    exact ⟨i, a, b, by simpa [Graph.arcs, hl] using ha, hb, rfl⟩
  · rintro ⟨i, a, b, ha, hb, rfl⟩
    have hi := lt_of_mem_arcs ha
    refine ⟨g.states[i], i, by simp [List.getElem?_eq_getElem hi], a, ?_, b, hb, rfl⟩
    simpa [Graph.arcs, List.getElem?_eq_getElem hi] using ha

/-- Removing the marked transitions and splicing in transducers for them. -/
theorem splice_accepts {β : Type} {g B : Graph} (hg : WF g) (f : β → Graph) (F : Arc → Option β)
    (K : Sym × Sym → Option Graph) (hK : ∀ a, K a.label = (F a).map f)
    (hf : ∀ s, ∀ a ∈ g.arcs s, ∀ b, F a = some b → WF (f b) ∧ FinalMap (f b))
    (hB : ∀ s a, a ∈ B.arcs s ↔ a ∈ g.arcs s ∧ K a.label = none)
    (hBf : ∀ s, B.final s = g.final s) (hBl : B.states.length = g.states.length)
    (l' : List (Sym × Sym)) (w' : Int) :
    Accepts ((g.scheduled F).foldl (fun g e => g.addSubstitution e.1 (f e.2)) B) l' w' ↔
      ∃ l w v, Accepts g l w ∧ Spliced K l l' v ∧ w' = w + v := by
  have hBwf : WF B := by
    refine ⟨by rw [hBl]; exact hg.nonempty, ?_, ?_⟩
    · intro s a ha; rw [hBl]; exact hg.targets s a ((hB s a).mp ha).1
    · intro s w h; rw [hBl]; rw [hBf] at h; exact hg.finals s w h
  have main := fun s q l w hs hq => foldSubst_gpath f g.states.length (g.scheduled F) B hBwf (by omega) ?_
    (V := fun _ _ _ _ => False) (fun _ _ _ _ h => h.elim) (s := s) (q := q) (l := l) (w := w) hs hq
  · have hfin := (main 0 0 [] 0 hg.nonempty hg.nonempty).2
    have step : ∀ s q l w, s < g.states.length → q < g.states.length →
        (Path ((g.scheduled F).foldl (fun g e => g.addSubstitution e.1 (f e.2)) B) s l w q ↔
          ∃ l0 w0 v, Path g s l0 w0 q ∧ Spliced K l0 l v ∧ w = w0 + v) := by
      intro s q l w hs hq
      rw [← gpath_iff_path, (main s q l w hs hq).1]
      refine splice_gpath hB ?_
      intro s t m v
      simp only [false_or]
      constructor
      · rintro ⟨e, he, hth⟩
        obtain ⟨s', a, b, ha, hb, rfl⟩ := (mem_scheduled g F e).mp he
        obtain ⟨rfl, h2⟩ := hth
        exact ⟨a, f b, ha, by rw [hK, hb]; rfl, rfl, h2⟩
      · rintro ⟨a, h, ha, hk, hth⟩
        rw [hK] at hk
        obtain ⟨b, hb, rfl⟩ := Option.map_eq_some_iff.mp hk
        exact ⟨_, (mem_scheduled g F _).mpr ⟨s, a, b, ha, hb, rfl⟩, hth⟩
    constructor
    · rintro ⟨q, v, u, hp, hu, rfl⟩
      rw [hfin, hBf] at hu
      obtain ⟨l0, w0, v0, h1, h2, rfl⟩ := (step 0 q l' v hg.nonempty (hg.finals q u hu)).mp hp
      exact ⟨l0, w0 + u, v0, ⟨q, w0, u, h1, hu, rfl⟩, h2, by omega⟩
    · rintro ⟨l, w, v, ⟨q, w0, u, h1, hu, rfl⟩, h2, rfl⟩
      refine ⟨q, w0 + v, u, (step 0 q l' _ hg.nonempty (hg.finals q u hu)).mpr ⟨l, w0, v, h1, h2, rfl⟩, ?_, by omega⟩
      rw [hfin, hBf]; exact hu
  · intro e he
    obtain ⟨s, a, b, ha, hb, rfl⟩ := (mem_scheduled g F e).mp he
    exact ⟨lt_of_mem_arcs ha, hg.targets s a ha, hf s a ha b hb⟩

theorem spliced_none {K : Sym × Sym → Option Graph} {g : Graph} (hK : ∀ s, ∀ a ∈ g.arcs s, K a.label = none)
    (l' : List (Sym × Sym)) (w' : Int) :
    Accepts g l' w' ↔ ∃ l w v, Accepts g l w ∧ Spliced K l l' v ∧ w' = w + v := by
  have key : ∀ {s l w q}, Path g s l w q → ∀ {l' v}, Spliced K l l' v ↔ l' = l ∧ v = 0 := by
    intro s l w q hp
    induction hp with
    | nil s =>
      intro l' v
      constructor
      · intro h; cases h; exact ⟨rfl, rfl⟩
      · rintro ⟨rfl, rfl⟩; exact .nil
    | @cons s q a l w ha _ ih =>
      intro l' v
      have hk := hK s a ha
      constructor
      · intro h
        cases h with
        | keep _ h => obtain ⟨rfl, rfl⟩ := ih.mp h; exact ⟨rfl, rfl⟩
        | put hk' _ _ => simp only [Arc.label] at hk; rw [hk] at hk'; cases hk'
      · rintro ⟨rfl, rfl⟩
        exact .keep hk (ih.mpr ⟨rfl, rfl⟩)
  constructor
  · rintro ⟨q, v, f, hp, hf, rfl⟩
    exact ⟨l', v + f, 0, ⟨q, v, f, hp, hf, rfl⟩, (key hp).mpr ⟨rfl, rfl⟩, by omega⟩
  · rintro ⟨l, w, v, ⟨q, v0, f, hp, hf, rfl⟩, hs, rfl⟩
    obtain ⟨rfl, rfl⟩ := (key hp).mp hs
    exact ⟨q, v0, f, hp, hf, by omega⟩

/-! ## C23 -/

/-- C23 as stated fails: two transitions with the pair in one state make the code use an invalidated iterator. -/
theorem C23_violated : ∃ (g h : Graph) (sp : Sym × Sym), WF g ∧ AlphaOK g ∧ WF h ∧ AlphaOK h ∧
    g.substituteGraph sp h = .undefined := by
  have hrun : runEdits Graph.init [.addTransition 0 ⟨0, sa, sa, 0⟩ true, .addTransition 0 ⟨1, sa, sa, 0⟩ true] =
      .ok ⟨[[⟨0, sa, sa, 0⟩, ⟨1, sa, sa, 0⟩], []], [], [sa, epsilon, unknown, identity]⟩ := by decide
  refine ⟨_, Graph.init, (sa, sa), C15_states _ _ hrun, C15_alphabet_partial _ _ ?_ hrun, WF.init, AlphaOK.init, by decide⟩
  intro e he
  simp only [List.mem_cons, List.not_mem_nil, or_false] at he
  rcases he with rfl | rfl <;> simp [Edit.keepsAlphabet]

/-- C23, when the call is defined: it fails or is undefined in no other case. -/
theorem C23_defined_iff (g h : Graph) (hg : AlphaOK g) (sp : Sym × Sym) (h1 : sp.1 ≠ []) (h2 : sp.2 ≠ []) :
    (∃ g', g.substituteGraph sp h = .ok g') ↔
      ∀ s, ((g.arcs s).filter fun a => (a.inp, a.out) = sp).length ≤ 1 := by
  have hmem : (∀ l ∈ g.states, (l.filter fun a => a.label = sp).length ≤ 1) ↔
      ∀ s, ((g.arcs s).filter fun a => (a.inp, a.out) = sp).length ≤ 1 := by
    constructor
    · intro H s
      by_cases hs : s < g.states.length
      · have := H g.states[s] (List.getElem_mem hs)
        have e : g.arcs s = g.states[s] := by simp [Graph.arcs, List.getElem?_eq_getElem hs]
        rw [e]; exact this
      · rw [arcs_eq_nil g (by omega)]; simp
    · intro H l hl
      obtain ⟨s, hs, rfl⟩ := List.getElem_of_mem hl
      have := H s
      have e : g.arcs s = g.states[s] := by simp [Graph.arcs, List.getElem?_eq_getElem hs]
      rw [e] at this; exact this
  rw [← hmem]
  unfold Graph.substituteGraph
  rw [if_neg (by simp [isValidSymbol, h1, h2])]
  split
  · rename_i hal
    refine ⟨fun _ l hl => ?_, fun _ => ⟨_, rfl⟩⟩
    obtain ⟨s, hs, rfl⟩ := List.getElem_of_mem hl
    rw [List.filter_eq_nil_iff.mpr]
    · simp
    · intro a ha
      have ha' : a ∈ g.arcs s := by simpa [Graph.arcs, List.getElem?_eq_getElem hs] using ha
      have := hg.arcs s a ha'
      intro e
      simp only [decide_eq_true_eq] at e
      rw [← e] at hal
      exact hal.1 this.1
  · split
    · rename_i hc
      obtain ⟨l, hl, h⟩ := List.any_eq_true.mp hc
      simp only [decide_eq_true_eq] at h
      exact ⟨fun ⟨_, h⟩ => (by cases h), fun H => absurd (H l hl) (by omega)⟩
    · rename_i hc
      refine ⟨fun _ l hl => ?_, fun _ => ⟨_, rfl⟩⟩
      by_contra hn
      exact hc (List.any_eq_true.mpr ⟨l, hl, by simp only [decide_eq_true_eq]; omega⟩)

/-- C23 (partial): whenever the call returns, the accepted weighted sequences are exactly those obtained from an old one
by replacing each occurrence of the pair by a sequence accepted by the substituted transducer.  Missing: the call is
undefined if a state has two transitions with the pair (`C23_violated`, `C23_defined_iff`). -/
theorem C23_substituteGraph_partial (g h g' : Graph) (hg : WF g) (hal : AlphaOK g) (hh : WF h) (hm : FinalMap h)
    (sp : Sym × Sym) (hr : g.substituteGraph sp h = .ok g') (l' : List (Sym × Sym)) (w' : Int) :
    Accepts g' l' w' ↔
      ∃ l w v, Accepts g l w ∧ Spliced (fun p => if p = sp then some h else none) l l' v ∧ w' = w + v := by
  unfold Graph.substituteGraph at hr
  split at hr
  · cases hr
  · split at hr
    · rename_i hno
      cases hr
      refine spliced_none ?_ l' w'
      intro s a ha
      have := hal.arcs s a ha
      rw [if_neg]
      rintro rfl
      exact hno.1 this.1
    · split at hr
      · cases hr
      · cases hr
        refine splice_accepts hg (fun _ => h) _ _ ?_ ?_ ?_ ?_ ?_ l' w'
        · intro a; by_cases e : a.label = sp <;> simp [e]
        · intro s a _ b _; exact ⟨hh, hm⟩
        · intro s a
          rw [arcs_map g _ (by simp) s g.alphabet, List.mem_filter]
          simp
        · intro s; rfl
        · simp

/-- A case: the pair occurs on a loop and the substituted transducer accepts two sequences. -/
example : (⟨[[⟨0, sa, sa, 1⟩]], [(0, 0)], [sa, epsilon]⟩ : Graph).substituteGraph (sa, sa)
      ⟨[[⟨1, sb, sb, 2⟩], []], [(0, 3), (1, 0)], []⟩ =
    .ok ⟨[[⟨1, epsilon, epsilon, 1⟩], [⟨2, sb, sb, 2⟩, ⟨0, epsilon, epsilon, 3⟩], [⟨0, epsilon, epsilon, 0⟩]], [(0, 0)],
      [sb, sa, epsilon]⟩ := by decide

/-- C23 for several symbols at once (`substitute(SubstMap)` without harmonization): every identity pair of a symbol in
the map is replaced. -/
theorem C23_substituteGraphs (g g' : Graph) (hg : WF g) (hal : AlphaOK g) (m : List (Sym × Graph))
    (hh : ∀ e ∈ m, WF e.2 ∧ FinalMap e.2) (hr : g.substituteGraphs m = .ok g')
    (l' : List (Sym × Sym)) (w' : Int) :
    Accepts g' l' w' ↔ ∃ l w v, Accepts g l w ∧ Spliced (fun p => m.lookup p.1) l l' v ∧ w' = w + v := by
  unfold Graph.substituteGraphs at hr
  split at hr
  · cases hr
  · split at hr
    · rename_i hno
      cases hr
      refine spliced_none ?_ l' w'
      intro s a ha
      have := (hal.arcs s a ha).1
      rw [← mapGet_eq_lookup]
      cases hl : mapGet m a.label.1 with
      | none => rfl
      | some k =>
        exfalso
        simp only [Bool.not_eq_true', List.any_eq_false] at hno
        exact hno _ (mapGet_mem hl) (decide_eq_true this)
    · split at hr
      · cases hr
      · cases hr
        refine splice_accepts hg id _ _ ?_ ?_ ?_ ?_ ?_ l' w'
        · intro a; simp [Arc.label, mapGet_eq_lookup]
        · intro s a _ b hb; exact hh _ (mapGet_mem hb)
        · intro s a
          rw [arcs_map g _ (by simp), List.mem_filter]
          simp [Arc.label, mapGet_eq_lookup]
        · intro s; rfl
        · simp

/-- C23 for several symbols: a symbol of the map on one side only of a transition makes the call fail. -/
theorem C23_oneSided (g : Graph) (m : List (Sym × Graph)) (s : Nat) (a : Arc) (hal : AlphaOK g) (ha : a ∈ g.arcs s)
    (hne : a.inp ≠ a.out) (hx : (∃ k, (a.inp, k) ∈ m) ∨ (∃ k, (a.out, k) ∈ m)) : g.substituteGraphs m = .throws := by
  unfold Graph.substituteGraphs
  split
  · rfl
  · rw [if_neg, if_pos]
    · have hs := lt_of_mem_arcs ha
      refine List.any_eq_true.mpr ⟨g.states[s], List.getElem_mem hs, List.any_eq_true.mpr ⟨a, ?_, ?_⟩⟩
      · simpa [Graph.arcs, List.getElem?_eq_getElem hs] using ha
      · rcases hx with ⟨k, hk⟩ | ⟨k, hk⟩
        · simp [mapGet_isSome_of_mem hk, hne]
        · simp [mapGet_isSome_of_mem hk, hne]
    · simp only [Bool.not_eq_true', Bool.not_eq_false]
      have := hal.arcs s a ha
      rcases hx with ⟨k, hk⟩ | ⟨k, hk⟩
      · exact List.any_eq_true.mpr ⟨_, hk, by simpa using this.1⟩
      · exact List.any_eq_true.mpr ⟨_, hk, by simpa using this.2⟩

example : (⟨[[⟨0, sa, sa, 1⟩, ⟨0, sb, sb, 0⟩]], [(0, 0)], [sa, sb, epsilon]⟩ : Graph).substituteGraphs
      [(sa, ⟨[[]], [(0, 3)], []⟩), (sc, Graph.init)] =
    .ok ⟨[[⟨0, sb, sb, 0⟩, ⟨1, epsilon, epsilon, 1⟩], [⟨0, epsilon, epsilon, 3⟩]], [(0, 0)], [sb, epsilon]⟩ := by decide

/-! ## C53: free insertion of a transducer -/

/-- `InsertedWords h l l' v`: `l'` is `l` with sequences accepted by `h` put in anywhere (each between two epsilon
pairs); `v` is the sum of their weights. -/
inductive InsertedWords (h : Graph) : List (Sym × Sym) → List (Sym × Sym) → Int → Prop
  | nil : InsertedWords h [] [] 0
  | keep {l l' : List (Sym × Sym)} {v : Int} (p : Sym × Sym) : InsertedWords h l l' v →
      InsertedWords h (p :: l) (p :: l') v
  | put {m l l' : List (Sym × Sym)} {u v : Int} : Accepts h m u → InsertedWords h l l' v →
      InsertedWords h l ((epsilon, epsilon) :: (m ++ (epsilon, epsilon) :: l')) (u + v)

theorem insertedWords_iff (h : Graph) (mk : Sym × Sym) {l l' : List (Sym × Sym)} {v : Int} (hl : mk ∉ l) :
    (∃ l1 k, Inserted [mk] l l1 k ∧ Spliced (fun p => if p = mk then some h else none) l1 l' v) ↔
      InsertedWords h l l' v := by
  constructor
  · rintro ⟨l1, k, hi, hs⟩
    induction hi generalizing l' v with
    | nil => cases hs; exact .nil
    | keep p _ ih =>
      have hp : p ≠ mk := fun e => hl (by simp [e])
      cases hs with
      | keep _ hs => exact .keep p (ih (fun h => hl (by simp [h])) hs)
      | put hk _ _ => simp [hp] at hk
    | ins hp _ ih =>
      simp only [List.mem_singleton] at hp
      subst hp
      cases hs with
      | keep hk _ => simp at hk
      | put hk hacc hs =>
        simp only [if_true, Option.some.injEq] at hk
        subst hk
        exact .put hacc (ih hl hs)
  · intro hi
    induction hi with
    | nil => exact ⟨[], 0, .nil, .nil⟩
    | keep p _ ih =>
      have hp : p ≠ mk := fun e => hl (by simp [e])
      obtain ⟨l1, k, h1, h2⟩ := ih (fun h => hl (by simp [h]))
      exact ⟨p :: l1, k, .keep p h1, .keep (by simp [hp]) h2⟩
    | put hacc _ ih =>
      obtain ⟨l1, k, h1, h2⟩ := ih hl
      exact ⟨mk :: l1, k + 1, .ins (by simp) h1, .put (by simp) hacc h2⟩

theorem path_label {g : Graph} {p : Sym × Sym} (hp : ∀ s, ∀ a ∈ g.arcs s, (a.inp, a.out) ≠ p) {s q : Nat}
    {l : List (Sym × Sym)} {w : Int} (h : Path g s l w q) : p ∉ l := by
  induction h with
  | nil s => simp
  | cons ha _ ih =>
    simp only [List.mem_cons, not_or]
    exact ⟨fun e => hp _ _ ha e.symm, ih⟩

/-- C53: inserting a transducer freely never fails for a transducer without the internal marker symbol, and the result
accepts exactly the old sequences with sequences accepted by the inserted transducer put in anywhere, weights added. -/
theorem C53_insertFreelyGraph (g h : Graph) (hg : WF g) (hal : AlphaOK g) (hh : WF h) (hm : FinalMap h)
    (hmark : ∀ s, ∀ a ∈ g.arcs s, (a.inp, a.out) ≠ (marker, marker)) :
    ∃ g', g.insertFreelyGraph h = .ok g' ∧ ∀ l' w',
      (Accepts g' l' w' ↔ ∃ l w v, Accepts g l w ∧ InsertedWords h l l' v ∧ w' = w + v) := by
  have hok : ∃ g1, g.insertFreely [(marker, marker)] 0 = .ok g1 := by
    unfold Graph.insertFreely
    rw [if_neg (by decide)]
    exact ⟨_, rfl⟩
  obtain ⟨g1, hg1⟩ := hok
  have hwf1 : WF g1 := hg.insertFreely hg1
  have hal1 : AlphaOK g1 := hal.apply (.insertFreely [(marker, marker)] 0) trivial hg1
  have hdef : ∃ g2, g1.substituteGraph (marker, marker) h = .ok g2 := by
    rw [C23_defined_iff g1 h hal1 (marker, marker) (by decide) (by decide)]
    intro s
    rw [(insertFreely_arcs hg1 s).1]
    split
    · rw [List.filter_append, List.filter_eq_nil_iff.mpr]
      · simp
      · intro a ha
        simpa using hmark s a ha
    · simp
  obtain ⟨g2, hg2⟩ := hdef
  refine ⟨g2.removeSymbol marker, ?_, ?_⟩
  · unfold Graph.insertFreelyGraph; rw [hg1]; simp only []; rw [hg2]
  intro l' w'
  have e : Accepts (g2.removeSymbol marker) l' w' ↔ Accepts g2 l' w' := by
    have : ∀ s q l w, Path (g2.removeSymbol marker) s l w q ↔ Path g2 s l w q := by
      intro s q l w
      constructor <;>
      · intro h
        induction h with
        | nil s => exact .nil s
        | cons ha _ ih => exact .cons ha ih
    simp only [Accepts, this]
    exact Iff.rfl
  rw [e, C23_substituteGraph_partial g1 h g2 hwf1 hal1 hh hm _ hg2]
  constructor
  · rintro ⟨l1, w1, v, hacc, hs, rfl⟩
    obtain ⟨l, w, k, hacc', hi, rfl⟩ := (C22_insertFreely g g1 hg _ _ hg1 l1 w1).mp hacc
    refine ⟨l, w, v, hacc', ?_, by simp⟩
    obtain ⟨q, _, _, hp, _⟩ := hacc'
    exact (insertedWords_iff h (marker, marker) (path_label hmark hp)).mp ⟨l1, k, hi, hs⟩
  · rintro ⟨l, w, v, hacc, hi, rfl⟩
    have hl : (marker, marker) ∉ l := by
      obtain ⟨q, _, _, hp, _⟩ := hacc
      exact path_label hmark hp
    obtain ⟨l1, k, h1, h2⟩ := (insertedWords_iff h (marker, marker) hl).mpr hi
    exact ⟨l1, w, v, (C22_insertFreely g g1 hg _ _ hg1 l1 w).mpr ⟨l, w, k, hacc, h1, by simp⟩, h2, rfl⟩

example : (⟨[[⟨1, sa, sa, 1⟩], []], [(1, 0)], [sa, epsilon]⟩ : Graph).insertFreelyGraph ⟨[[]], [(0, 3)], []⟩ =
    .ok ⟨[[⟨1, sa, sa, 1⟩, ⟨2, epsilon, epsilon, 0⟩], [⟨3, epsilon, epsilon, 0⟩], [⟨0, epsilon, epsilon, 3⟩],
      [⟨1, epsilon, epsilon, 3⟩]], [(1, 0)], [sa, epsilon]⟩ := by decide

/-! ## C54: inserting a transducer between two states -/

/-- C54: after inserting `h` between the states `s1` and `s2`, the accepted sequences are those of paths of the old
transducer that may, whenever they are at `s1`, continue at `s2` after a sequence accepted by `h` (written between two
epsilon pairs). -/
theorem C54_insertTransducer (g h : Graph) (hg : WF g) (hh : WF h) (hm : FinalMap h) (s1 s2 : Nat)
    (h1 : s1 < g.states.length) (h2 : s2 < g.states.length) (l : List (Sym × Sym)) (w : Int) :
    Accepts (g.insertTransducer s1 s2 h) l w ↔
      ∃ q v f, GPath g (fun s t m u => s = s1 ∧ t = s2 ∧
          ∃ m0, Accepts h m0 u ∧ m = (epsilon, epsilon) :: (m0 ++ [(epsilon, epsilon)])) 0 l v q ∧
        g.final q = some f ∧ w = v + f := by
  have G : Gadget g (g.insertTransducer s1 s2 h) h g.states.length s1 s2 0 := by
    refine ⟨hg, hh, rfl, h1, h2, ?_, ?_⟩
    · intro s a
      unfold Graph.insertTransducer
      simp only []
      rw [copyFinals_eq, copyArcs_eq, arcs_addTransition]
      simp only [foldl_addTransition_arcs]
      have harc : ∀ t, g.addState.1.arcs t = g.arcs t := fun t => arcs_addState g t
      simp only [harc]
      have hmain : ∀ s, a ∈ (g.arcs s ++ ((copyList h g.addState.2).filter (fun e => e.1 = s)).map (·.2)) ++
          ((finalList h g.addState.2 s2).filter (fun e => e.1 = s)).map (·.2) ↔ a ∈ g.arcs s ∨
          (∃ t b, b ∈ h.arcs t ∧ s = t + g.states.length ∧ a = { b with target := b.target + g.states.length }) ∨
          (∃ t f, h.final t = some f ∧ s = t + g.states.length ∧ a = ⟨s2, epsilon, epsilon, f⟩) := by
        intro s
        simp only [List.mem_append, List.mem_map, List.mem_filter, decide_eq_true_eq, mem_copyList, mem_finalList]
        constructor
        · rintro ((h | ⟨e, ⟨⟨i, b, hb, rfl⟩, rfl⟩, rfl⟩) | ⟨e, ⟨⟨f, hf, rfl⟩, rfl⟩, rfl⟩)
          · exact .inl h
          · exact .inr (.inl ⟨i, b, hb, rfl, rfl⟩)
          · exact .inr (.inr ⟨f.1, f.2, (hm.iff _ _).mpr hf, rfl, rfl⟩)
        · rintro (h | ⟨t, b, hb, rfl, rfl⟩ | ⟨t, f, hf, rfl, rfl⟩)
          · exact .inl (.inl h)
          · exact .inl (.inr ⟨_, ⟨⟨t, b, hb, rfl⟩, rfl⟩, rfl⟩)
          · exact .inr ⟨_, ⟨⟨(t, f), (hm.iff _ _).mp hf, rfl⟩, rfl⟩, rfl⟩
      by_cases e : s = s1
      · subst e
        rw [if_pos rfl, List.mem_append, hmain]
        simp only [List.mem_singleton, true_and]
        have : g.addState.2 = g.states.length := rfl
        rw [this]
        constructor
        · rintro ((h | h | h) | h)
          · exact .inl h
          · exact .inr (.inr (.inl h))
          · exact .inr (.inr (.inr h))
          · exact .inr (.inl h)
        · rintro (h | h | h | h)
          · exact .inl (.inl h)
          · exact .inr h
          · exact .inl (.inr (.inl h))
          · exact .inl (.inr (.inr h))
      · rw [if_neg e, hmain]
        simp only [e, false_and, false_or]
    · intro s
      unfold Graph.insertTransducer
      simp only []
      rw [copyFinals_eq, copyArcs_eq, final_addTransition, foldl_addTransition_final, foldl_addTransition_final]
      rfl
  have hth : ∀ s t m u, Through h s1 s2 0 s t m u ↔ (s = s1 ∧ t = s2 ∧
      ∃ m0, Accepts h m0 u ∧ m = (epsilon, epsilon) :: (m0 ++ [(epsilon, epsilon)])) := by
    intro s t m u
    unfold Through
    constructor
    · rintro ⟨rfl, rfl, m0, v0, h1, rfl, rfl⟩
      exact ⟨rfl, rfl, m0, by simpa using h1, rfl⟩
    · rintro ⟨rfl, rfl, m0, h1, rfl⟩
      exact ⟨rfl, rfl, m0, u, h1, rfl, by simp⟩
  have step : ∀ q l v, q < g.states.length → (Path (g.insertTransducer s1 s2 h) 0 l v q ↔
      GPath g (fun s t m u => s = s1 ∧ t = s2 ∧
          ∃ m0, Accepts h m0 u ∧ m = (epsilon, epsilon) :: (m0 ++ [(epsilon, epsilon)])) 0 l v q) := by
    intro q l v hq
    rw [← gpath_iff_path, G.gpath (V := fun _ _ _ _ => False) (fun _ _ _ _ h => h.elim) hg.nonempty hq]
    simp only [false_or, hth]
  constructor
  · rintro ⟨q, v, f, hp, hf, rfl⟩
    rw [G.final] at hf
    exact ⟨q, v, f, (step q l v (hg.finals q f hf)).mp hp, hf, rfl⟩
  · rintro ⟨q, v, f, hp, hf, rfl⟩
    exact ⟨q, v, f, (step q l v (hg.finals q f hf)).mpr hp, by rw [G.final]; exact hf, rfl⟩

example : (⟨[[], []], [(1, 0)], [sa, epsilon]⟩ : Graph).insertTransducer 0 1 ⟨[[⟨0, sa, sb, 0⟩]], [(0, 3)], []⟩ =
    ⟨[[⟨2, epsilon, epsilon, 0⟩], [], [⟨2, sa, sb, 0⟩, ⟨1, epsilon, epsilon, 3⟩]], [(1, 0)], [sb, sa, epsilon]⟩ := by decide

/-! ## C15: the final weights stay a map -/

theorem FinalMap.put {m : List (Nat × Int)} (h : (m.map (·.1)).Nodup) (s : Nat) (w : Int) :
    ((mapPut m s w).map (·.1)).Nodup := by
  unfold mapPut
  simp only [List.map_cons, List.nodup_cons]
  refine ⟨?_, List.Sublist.nodup (List.Sublist.map _ List.filter_sublist) h⟩
  simp

theorem FinalMap.erase {m : List (Nat × Int)} (h : (m.map (·.1)).Nodup) (s : Nat) :
    ((mapErase m s).map (·.1)).Nodup :=
  List.Sublist.nodup (List.Sublist.map _ List.filter_sublist) h

theorem finals_addTransition (g : Graph) (s : Nat) (a : Arc) (b : Bool) : (g.addTransition s a b).finals = g.finals := by
  unfold Graph.addTransition
  simp only []
  split <;> rfl

theorem finals_foldAdd (l : List (Nat × Arc)) (g : Graph) :
    (l.foldl (fun g e => g.addTransition e.1 e.2) g).finals = g.finals := by
  induction l generalizing g with
  | nil => rfl
  | cons e l ih => rw [List.foldl_cons, ih, finals_addTransition]

theorem finals_addSubstitution (g h : Graph) (sub : SubstData) : (g.addSubstitution sub h).finals = g.finals := by
  unfold Graph.addSubstitution
  simp only []
  rw [copyFinals_eq, copyArcs_eq, finals_foldAdd, finals_foldAdd, finals_addTransition]
  rfl

theorem finals_foldSubst {β : Type} (f : β → Graph) (l : List (SubstData × β)) (g : Graph) :
    (l.foldl (fun g e => g.addSubstitution e.1 (f e.2)) g).finals = g.finals := by
  induction l generalizing g with
  | nil => rfl
  | cons e l ih => rw [List.foldl_cons, ih, finals_addSubstitution]

theorem finals_disjunctPath (g : Graph) (spv : List (Sym × Sym)) (s : Nat) :
    (g.disjunctPath spv s).1.finals = g.finals := by
  induction spv generalizing g s with
  | nil => rfl
  | cons p rest ih =>
    unfold Graph.disjunctPath
    split
    · exact ih _ _
    · simp only []
      rw [ih, finals_addTransition]
      rfl

theorem finals_prune (g : Graph) (xs : List Sym) : (g.pruneAfterSubstitution xs).finals = g.finals := by
  unfold Graph.pruneAfterSubstitution; split <;> rfl

theorem finals_substituteGraph {g g' h : Graph} {sp : Sym × Sym} (hr : g.substituteGraph sp h = .ok g') :
    g'.finals = g.finals := by
  unfold Graph.substituteGraph at hr
  split at hr
  · cases hr
  · split at hr
    · cases hr; rfl
    · split at hr
      · cases hr
      · cases hr
        exact finals_foldSubst (fun _ => h) _ _

theorem finals_insertFreely {g g' : Graph} {ps : List (Sym × Sym)} {w : Int} (hr : g.insertFreely ps w = .ok g') :
    g'.finals = g.finals := by
  unfold Graph.insertFreely at hr
  split at hr
  · cases hr
  · cases hr; rfl

theorem finals_apply {g g' : Graph} (e : Edit) (hr : e.apply g = .ok g') :
    g'.finals = g.finals ∨ (∃ s w, g'.finals = mapPut g.finals s w) ∨ ∃ s, g'.finals = mapErase g.finals s := by
  cases e with
  | addState => cases hr; exact .inl rfl
  | addStateN s => cases hr; exact .inl rfl
  | addTransition s a b =>
    simp only [Edit.apply] at hr
    split at hr
    · cases hr
    · cases hr; exact .inl (finals_addTransition g s a b)
  | removeTransition s a b =>
    simp only [Edit.apply] at hr
    split at hr
    · cases hr
    · cases hr
      left
      unfold Graph.removeTransition
      split
      · rfl
      · simp only []
        split
        · split <;> split <;> rfl
        · rfl
  | setFinal s w => cases hr; exact .inr (.inl ⟨s, w, rfl⟩)
  | removeFinal s => cases hr; exact .inr (.inr ⟨s, rfl⟩)
  | sortArcs num => cases hr; exact .inl rfl
  | addSymbol x => cases hr; exact .inl rfl
  | addSymbols x => cases hr; exact .inl rfl
  | removeSymbol x => cases hr; exact .inl rfl
  | removeSymbols x => cases hr; exact .inl rfl
  | pruneAlphabet f =>
    cases hr; left; unfold Graph.pruneAlphabet; simp only []; split <;> rfl
  | pruneAfterSubstitution xs => cases hr; exact .inl (finals_prune g xs)
  | removeTransitions p => cases hr; exact .inl rfl
  | substitute old new i o =>
    simp only [Edit.apply, Graph.substitute] at hr
    split at hr
    · cases hr
    · split at hr
      · cases hr; exact .inl rfl
      · split at hr
        · cases hr; exact .inl rfl
        · cases hr; exact .inl rfl
  | substituteMap m =>
    simp only [Edit.apply, Graph.substituteMap] at hr
    split at hr
    · cases hr
    · cases hr; exact .inl rfl
  | substitutePairMap m =>
    simp only [Edit.apply, Graph.substitutePairMap] at hr
    split at hr
    · cases hr
    · cases hr; exact .inl rfl
  | substitutePairSet old new =>
    simp only [Edit.apply, Graph.substitutePairSet] at hr
    split at hr
    · cases hr
    · split at hr
      · cases hr
      · split at hr
        · cases hr; exact .inl rfl
        · cases hr
          left
          rw [finals_prune]
          split <;> rfl
  | substituteFunc f =>
    simp only [Edit.apply, Graph.substituteFunc] at hr
    split at hr
    · cases hr
    · split at hr
      · cases hr
      · cases hr; exact .inl rfl
  | substituteGraph p k => exact .inl (finals_substituteGraph hr)
  | substituteGraphs m =>
    simp only [Edit.apply, Graph.substituteGraphs] at hr
    split at hr
    · cases hr
    · split at hr
      · cases hr; exact .inl rfl
      · split at hr
        · cases hr
        · cases hr; exact .inl (finals_foldSubst id _ _)
  | insertFreely ps w => exact .inl (finals_insertFreely hr)
  | insertFreelyGraph k =>
    simp only [Edit.apply, Graph.insertFreelyGraph] at hr
    split at hr
    · rename_i g1 h1
      split at hr
      · rename_i g2 h2
        cases hr
        left
        exact (finals_substituteGraph h2).trans (finals_insertFreely h1)
      · rename_i hn; exact absurd hr (hn g')
    · rename_i hn; exact absurd hr (hn g')
  | disjunct spv w =>
    simp only [Edit.apply, Graph.disjunct] at hr
    split at hr
    · cases hr
    · have hset : ∀ q, ((g.disjunctPath spv 0).1.setFinal q w).finals = mapPut g.finals q w := by
        intro q
        rw [← finals_disjunctPath g spv 0]; rfl
      split at hr
      · split at hr
        · cases hr; exact .inl (finals_disjunctPath g spv 0)
        · cases hr; exact .inr (.inl ⟨_, w, hset _⟩)
      · cases hr; exact .inr (.inl ⟨_, w, hset _⟩)
  | complete =>
    simp only [Edit.apply, Graph.complete] at hr
    split at hr
    · cases hr
    · cases hr; exact .inl rfl
  | flagPurge flag => cases hr; exact .inl rfl
  | insertTransducer s1 s2 k =>
    cases hr
    left
    unfold Graph.insertTransducer
    simp only []
    rw [finals_addTransition, copyFinals_eq, copyArcs_eq, finals_foldAdd, finals_foldAdd]
    rfl

/-- C15: after any sequence of edits the final weights still form a map (this is the hypothesis `FinalMap` of the
splicing theorems). -/
theorem C15_finalMap (es : List Edit) (g : Graph) (h : runEdits Graph.init es = .ok g) : FinalMap g := by
  suffices ∀ (g0 g : Graph), FinalMap g0 → runEdits g0 es = .ok g → FinalMap g from
    this _ _ (by simp [FinalMap, Graph.init]) h
  clear h g
  induction es with
  | nil => intro g0 g h0 h; cases h; exact h0
  | cons e es ih =>
    intro g0 g h0 h
    simp only [runEdits] at h
    split at h
    · rename_i g1 h1
      refine ih g1 g ?_ h
      unfold FinalMap at h0 ⊢
      rcases finals_apply e h1 with e1 | ⟨s, w, e1⟩ | ⟨s, e1⟩
      · rw [e1]; exact h0
      · rw [e1]; exact FinalMap.put h0 s w
      · rw [e1]; exact FinalMap.erase h0 s
    · rename_i hn
      exact absurd h (hn g)

end Hfst.Basic
