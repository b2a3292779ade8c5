import Verif.Props.LexcSplice

/-!
# C71: the assumptions about the back-end can be met

`reference` is a back-end on graphs; `reference_ok` shows that it satisfies everything that the theorems about lexicons ask of
a back-end.  It models no code of the repository.
-/
namespace Hfst.Lexc
open Hfst.Basic
open Hfst.Basic.Graph (init SubstData)

/-! ## Copies of transducers between the states of a skeleton -/

/-- `n` states without transitions (no code of the repository). -/
def skeleton (n : Nat) (fs : List (Nat × Int)) : Graph :=
  { states := List.replicate n [], finals := fs, alphabet := [epsilon, unknown, identity] }

/-- A skeleton with copies of transducers between its states (no code of the repository). -/
def joined (n : Nat) (fs : List (Nat × Int)) (subs : List (SubstData × Graph)) : Graph :=
  subs.foldl (fun g e => g.addSubstitution e.1 (id e.2)) (skeleton n fs)

theorem skeleton_arcs (n : Nat) (fs : List (Nat × Int)) (s : Nat) : (skeleton n fs).arcs s = [] := by
  simp only [Graph.arcs, skeleton, List.getElem?_replicate]
  split <;> rfl

theorem skeleton_good {n : Nat} {fs : List (Nat × Int)} (hn : 0 < n) (hf : ∀ e ∈ fs, e.1 < n) (hm : (fs.map (·.1)).Nodup) :
    Good (skeleton n fs) := by
  refine ⟨⟨by simpa [skeleton] using hn, ?_, ?_⟩, ⟨?_, by simp [skeleton], by simp [skeleton], by simp [skeleton]⟩, hm⟩
  · intro s a ha; rw [skeleton_arcs] at ha; cases ha
  · intro s w h
    have := hf _ (mapGet_mem h)
    simpa [skeleton] using this
  · intro s a ha; rw [skeleton_arcs] at ha; cases ha

theorem joined_good {n : Nat} {fs : List (Nat × Int)} (hn : 0 < n) (hf : ∀ e ∈ fs, e.1 < n) (hm : (fs.map (·.1)).Nodup)
    (subs : List (SubstData × Graph)) : Good (joined n fs subs) := by
  have hg := skeleton_good hn hf hm
  refine ⟨hg.wf.foldSubst _ id, hg.alpha.foldSubst _ id, ?_⟩
  unfold FinalMap joined
  rw [finals_foldSubst id]
  exact hg.finals

theorem foldSubst_labels (n : Nat) (subs : List (SubstData × Graph)) (g : Graph) (hg : WF g) (hn : n ≤ g.states.length)
    (hsub : ∀ e ∈ subs, e.1.origin < n ∧ e.1.target < n ∧ Good e.2) (p : Sym × Sym)
    (h : HasLabel (subs.foldl (fun g e => g.addSubstitution e.1 (id e.2)) g) p) :
    HasLabel g p ∨ p = (epsilon, epsilon) ∨ ∃ e ∈ subs, HasLabel e.2 p := by
  induction subs generalizing g with
  | nil => exact .inl h
  | cons e subs ih =>
    obtain ⟨h1, h2, h3⟩ := hsub e (by simp)
    have G := addSubstitution_gadget hg h3.wf h3.finals e.1 (by omega) (by omega)
    have hlen := length_addSubstitution_ge g e.2 e.1
    rcases ih (g.addSubstitution e.1 e.2) (hg.addSubstitution _ _) (by omega) (fun e he => hsub e (by simp [he])) h with
      ⟨s, a, ha, rfl⟩ | h | ⟨e', he', h⟩
    · rcases (G.arcs s a).mp ha with ha | ⟨_, rfl⟩ | ⟨t, b, hb, _, rfl⟩ | ⟨t, f, _, _, rfl⟩
      · exact .inl ⟨s, a, ha, rfl⟩
      · exact .inr (.inl rfl)
      · exact .inr (.inr ⟨e, by simp, t, b, hb, rfl⟩)
      · exact .inr (.inl rfl)
    · exact .inr (.inl h)
    · exact .inr (.inr ⟨e', by simp [he'], h⟩)

theorem joined_labels {n : Nat} {fs : List (Nat × Int)} (hn : 0 < n) (hf : ∀ e ∈ fs, e.1 < n) (hm : (fs.map (·.1)).Nodup)
    {subs : List (SubstData × Graph)} (hsub : ∀ e ∈ subs, e.1.origin < n ∧ e.1.target < n ∧ Good e.2) (p : Sym × Sym)
    (h : HasLabel (joined n fs subs) p) : p = (epsilon, epsilon) ∨ ∃ e ∈ subs, HasLabel e.2 p := by
  rcases foldSubst_labels n subs _ (skeleton_good hn hf hm).wf (by simp [skeleton]) hsub p h with ⟨s, a, ha, _⟩ | h
  · rw [skeleton_arcs] at ha; cases ha
  · exact h

/-- A walk through the copies. -/
inductive Walk (subs : List (SubstData × Graph)) : Nat → List (Sym × Sym) → Int → Nat → Prop
  | nil (s : Nat) : Walk subs s [] 0 s
  | step {e : SubstData × Graph} {q : Nat} {m l : List (Sym × Sym)} {v w : Int} :
      e ∈ subs → Accepts e.2 m v → Walk subs e.1.target l w q →
      Walk subs e.1.origin ((epsilon, epsilon) :: (m ++ (epsilon, epsilon) :: l)) (e.1.weight + v + w) q

theorem Walk.inv {subs : List (SubstData × Graph)} {s q : Nat} {l : List (Sym × Sym)} {w : Int} (h : Walk subs s l w q) :
    (s = q ∧ l = [] ∧ w = 0) ∨ ∃ e ∈ subs, e.1.origin = s ∧ ∃ m v l' w', Accepts e.2 m v ∧ Walk subs e.1.target l' w' q ∧
      strip l = strip m ++ strip l' ∧ w = e.1.weight + v + w' := by
  cases h with
  | nil => exact .inl ⟨rfl, rfl, rfl⟩
  | @step e _ m l v w he ha h =>
    exact .inr ⟨e, he, rfl, m, v, l, w, ha, h, by rw [strip_cons_eps, strip_append, strip_cons_eps], rfl⟩

theorem joined_accepts {n : Nat} {fs : List (Nat × Int)} (hn : 0 < n) (hf : ∀ e ∈ fs, e.1 < n) (hm : (fs.map (·.1)).Nodup)
    {subs : List (SubstData × Graph)} (hsub : ∀ e ∈ subs, e.1.origin < n ∧ e.1.target < n ∧ Good e.2)
    (l : List (Sym × Sym)) (w : Int) :
    Accepts (joined n fs subs) l w ↔ ∃ q v f, Walk subs 0 l v q ∧ (q, f) ∈ fs ∧ w = v + f := by
  have hg := skeleton_good hn hf hm
  have main := fun s q l w hs hq => foldSubst_gpath id n subs (skeleton n fs) hg.wf (by simp [skeleton])
    (fun e he => ⟨(hsub e he).1, (hsub e he).2.1, (hsub e he).2.2.wf, (hsub e he).2.2.finals⟩)
    (V := fun _ _ _ _ => False) (fun _ _ _ _ h => h.elim) (s := s) (q := q) (l := l) (w := w) hs hq
  have hw : ∀ s l w q, GPath (skeleton n fs) (fun s t m v => False ∨
      ∃ e ∈ subs, Through (id e.2) e.1.origin e.1.target e.1.weight s t m v) s l w q ↔ Walk subs s l w q := by
    intro s l w q
    constructor
    · intro h
      induction h with
      | nil s => exact .nil s
      | cons ha _ _ => rw [skeleton_arcs] at ha; cases ha
      | @extra s t q m l v w hv _ ih =>
        rcases hv with hv | ⟨e, he, rfl, rfl, m0, v0, hacc, rfl, rfl⟩
        · exact hv.elim
        · have := Walk.step he hacc ih
          simpa using this
    · intro h
      induction h with
      | nil s => exact .nil s
      | @step e q m l v w he hacc _ ih =>
        have := GPath.extra (g := skeleton n fs) (V := fun s t m v => False ∨
          ∃ e ∈ subs, Through (id e.2) e.1.origin e.1.target e.1.weight s t m v)
          (.inr ⟨e, he, rfl, rfl, m, v, hacc, rfl, rfl⟩) ih
        simpa using this
  have hfin : ∀ t, (joined n fs subs).final t = (skeleton n fs).final t := (main 0 0 [] 0 hn hn).2
  unfold Accepts
  constructor
  · rintro ⟨q, v, f, hp, hq, rfl⟩
    rw [hfin] at hq
    have hmem := (hg.finals.iff q f).mp hq
    refine ⟨q, v, f, ?_, hmem, rfl⟩
    rw [← hw, ← (main 0 q l v hn (hf _ hmem)).1, gpath_iff_path]
    exact hp
  · rintro ⟨q, v, f, hp, hmem, rfl⟩
    refine ⟨q, v, f, ?_, ?_, rfl⟩
    · have := (main 0 q l v hn (hf _ hmem)).1.mpr ((hw _ _ _ _).mpr hp)
      exact gpath_iff_path.mp this
    · rw [hfin]; exact (hg.finals.iff q f).mpr hmem

/-! ## Product -/

/-- The transitions of a state of the product (no code of the repository). -/
def productArcs (n : Nat) (as bs : List Arc) (s t : Nat) : List Arc :=
  (as.flatMap fun a =>
    if a.out = epsilon then [{ a with target := a.target * n + t }]
    else bs.filterMap fun b =>
      if b.inp = a.out then some ⟨a.target * n + b.target, a.inp, a.out, a.weight + b.weight⟩ else none) ++
  bs.filterMap fun b => if b.inp = epsilon then some ⟨s * n + b.target, epsilon, epsilon, b.weight⟩ else none

/-- The product of a transducer and a filter on its output side (no code of the repository). -/
def product (g h : Graph) : Graph :=
  let n := h.states.length
  { states := (List.range (g.states.length * n)).map fun k => productArcs n (g.arcs (k / n)) (h.arcs (k % n)) (k / n) (k % n)
    finals := (List.range (g.states.length * n)).filterMap fun k =>
      (g.final (k / n)).bind fun a => (h.final (k % n)).map fun b => (k, a + b)
    alphabet := g.alphabet }

section
variable {g h : Graph}

theorem code_div {n s t : Nat} (ht : t < n) : (s * n + t) / n = s := by
  rw [Nat.mul_comm, Nat.mul_add_div (by omega), Nat.div_eq_of_lt ht, Nat.add_zero]

theorem code_mod {n s t : Nat} (ht : t < n) : (s * n + t) % n = t := by
  rw [Nat.mul_comm, Nat.mul_add_mod, Nat.mod_eq_of_lt ht]

theorem code_lt {m n s t : Nat} (hs : s < m) (ht : t < n) : s * n + t < m * n := by
  calc s * n + t < s * n + n := by omega
    _ = (s + 1) * n := by rw [Nat.succ_mul]
    _ ≤ m * n := Nat.mul_le_mul_right n hs

theorem product_arcs {s t : Nat} (hs : s < g.states.length) (ht : t < h.states.length) :
    (product g h).arcs (s * h.states.length + t) = productArcs h.states.length (g.arcs s) (h.arcs t) s t := by
  simp only [Graph.arcs, product, List.getElem?_map, List.getElem?_range (code_lt hs ht), Option.map_some, Option.getD_some,
    code_div ht, code_mod ht]

theorem product_nodup : FinalMap (product g h) := by
  unfold FinalMap product
  dsimp only
  have key : ∀ (f : Nat → Option (Nat × Int)), (∀ k e, f k = some e → e.1 = k) → ∀ l : List Nat, l.Nodup →
      ((l.filterMap f).map (·.1)).Nodup := by
    intro f hf l hl
    induction l with
    | nil => simp
    | cons k l ih =>
      rw [List.nodup_cons] at hl
      rw [List.filterMap_cons]
      split
      · exact ih hl.2
      · rename_i e he
        rw [List.map_cons, List.nodup_cons]
        refine ⟨?_, ih hl.2⟩
        intro hm
        obtain ⟨e', he', h1⟩ := List.mem_map.mp hm
        obtain ⟨k', hk', h2⟩ := List.mem_filterMap.mp he'
        rw [hf k e he] at h1
        rw [hf k' e' h2] at h1
        subst h1
        exact hl.1 hk'
  refine key _ ?_ _ List.nodup_range
  intro k e he
  cases h1 : g.final (k / h.states.length) with
  | none => simp [h1] at he
  | some a =>
    cases h2 : h.final (k % h.states.length) with
    | none => simp [h1, h2] at he
    | some b => simp [h1, h2] at he; rw [← he]

theorem product_final {s t : Nat} (hs : s < g.states.length) (ht : t < h.states.length) (w : Int) :
    (product g h).final (s * h.states.length + t) = some w ↔ ∃ a b, g.final s = some a ∧ h.final t = some b ∧ w = a + b := by
  rw [product_nodup.iff]
  simp only [product, List.mem_filterMap, List.mem_range]
  constructor
  · rintro ⟨k, _, hk⟩
    cases h1 : g.final (k / h.states.length) with
    | none => simp [h1] at hk
    | some a =>
      cases h2 : h.final (k % h.states.length) with
      | none => simp [h1, h2] at hk
      | some b =>
        simp only [h1, h2, Option.bind_some, Option.map_some, Option.some.injEq, Prod.mk.injEq] at hk
        obtain ⟨rfl, rfl⟩ := hk
        rw [code_div ht] at h1
        rw [code_mod ht] at h2
        exact ⟨a, b, h1, h2, rfl⟩
  · rintro ⟨a, b, h1, h2, rfl⟩
    exact ⟨_, code_lt hs ht, by rw [code_div ht, code_mod ht, h1, h2]; rfl⟩

theorem mem_productArcs {n s t : Nat} {as bs : List Arc} {c : Arc} : c ∈ productArcs n as bs s t ↔
    (∃ a ∈ as, a.out = epsilon ∧ c = { a with target := a.target * n + t }) ∨
    (∃ a ∈ as, ∃ b ∈ bs, a.out ≠ epsilon ∧ b.inp = a.out ∧ c = ⟨a.target * n + b.target, a.inp, a.out, a.weight + b.weight⟩) ∨
    (∃ b ∈ bs, b.inp = epsilon ∧ c = ⟨s * n + b.target, epsilon, epsilon, b.weight⟩) := by
  simp only [productArcs, List.mem_append, List.mem_flatMap, List.mem_filterMap]
  constructor
  · rintro (⟨a, ha, h⟩ | ⟨b, hb, h⟩)
    · split at h
      · rename_i e
        exact .inl ⟨a, ha, e, by simpa using h⟩
      · rename_i e
        obtain ⟨b, hb, h⟩ := List.mem_filterMap.mp h
        split at h
        · rename_i e'
          exact .inr (.inl ⟨a, ha, b, hb, e, e', by simpa using h.symm⟩)
        · cases h
    · split at h
      · rename_i e
        exact .inr (.inr ⟨b, hb, e, by simpa using h.symm⟩)
      · cases h
  · rintro (⟨a, ha, e, rfl⟩ | ⟨a, ha, b, hb, e, e', rfl⟩ | ⟨b, hb, e, rfl⟩)
    · exact .inl ⟨a, ha, by simp [e]⟩
    · refine .inl ⟨a, ha, ?_⟩
      rw [if_neg e]
      exact List.mem_filterMap.mpr ⟨b, hb, by simp [e']⟩
    · exact .inr ⟨b, hb, by simp [e]⟩

theorem product_length : (product g h).states.length = g.states.length * h.states.length := by simp [product]

theorem code_split (hh : Good h) {k : Nat} (hk : k < g.states.length * h.states.length) :
    ∃ s t, s < g.states.length ∧ t < h.states.length ∧ k = s * h.states.length + t := by
  refine ⟨k / h.states.length, k % h.states.length, ?_, Nat.mod_lt _ hh.wf.nonempty, ?_⟩
  · exact Nat.div_lt_of_lt_mul (by rwa [Nat.mul_comm])
  · rw [Nat.mul_comm]; exact (Nat.div_add_mod _ _).symm

theorem product_good (hg : Good g) (hh : Good h) : Good (product g h) := by
  have arc : ∀ k c, c ∈ (product g h).arcs k → ∃ s t, s < g.states.length ∧ t < h.states.length ∧
      c ∈ productArcs h.states.length (g.arcs s) (h.arcs t) s t := by
    intro k c hc
    have hk : k < g.states.length * h.states.length := by rw [← product_length]; exact Graph.lt_of_mem_arcs hc
    obtain ⟨s, t, hs, ht, rfl⟩ := code_split hh hk
    rw [product_arcs hs ht] at hc
    exact ⟨s, t, hs, ht, hc⟩
  refine ⟨⟨?_, ?_, ?_⟩, ⟨?_, hg.alpha.eps, hg.alpha.unk, hg.alpha.idn⟩, product_nodup⟩
  · rw [product_length]; exact Nat.mul_pos hg.wf.nonempty hh.wf.nonempty
  · intro k c hc
    obtain ⟨s, t, hs, ht, hc⟩ := arc k c hc
    rw [product_length]
    rcases mem_productArcs.mp hc with ⟨a, ha, _, rfl⟩ | ⟨a, ha, b, hb, _, _, rfl⟩ | ⟨b, hb, _, rfl⟩
    · exact code_lt (hg.wf.targets _ _ ha) ht
    · exact code_lt (hg.wf.targets _ _ ha) (hh.wf.targets _ _ hb)
    · exact code_lt hs (hh.wf.targets _ _ hb)
  · intro k w hw
    have := mapGet_mem hw
    simp only [product, List.mem_filterMap, List.mem_range] at this
    obtain ⟨k', hk', he⟩ := this
    rw [product_length]
    cases h1 : g.final (k' / h.states.length) with
    | none => simp [h1] at he
    | some a =>
      cases h2 : h.final (k' % h.states.length) with
      | none => simp [h1, h2] at he
      | some b =>
        simp [h1, h2] at he
        rw [← he.1]; exact hk'
  · intro k c hc
    obtain ⟨s, t, hs, ht, hc⟩ := arc k c hc
    rcases mem_productArcs.mp hc with ⟨a, ha, _, rfl⟩ | ⟨a, ha, b, hb, _, _, rfl⟩ | ⟨b, hb, _, rfl⟩
    · exact hg.alpha.arcs s a ha
    · exact hg.alpha.arcs s a ha
    · exact ⟨hg.alpha.eps, hg.alpha.eps⟩

theorem product_labels (hh : Good h) (p : Sym × Sym) (hp : HasLabel (product g h) p) :
    HasLabel g p ∨ p = (epsilon, epsilon) := by
  obtain ⟨k, c, hc, rfl⟩ := hp
  have hk : k < g.states.length * h.states.length := by rw [← product_length]; exact Graph.lt_of_mem_arcs hc
  obtain ⟨s, t, hs, ht, rfl⟩ := code_split hh hk
  rw [product_arcs hs ht] at hc
  rcases mem_productArcs.mp hc with ⟨a, ha, _, rfl⟩ | ⟨a, ha, b, hb, _, _, rfl⟩ | ⟨b, hb, _, rfl⟩
  · exact .inl ⟨s, a, ha, rfl⟩
  · exact .inl ⟨s, a, ha, rfl⟩
  · exact .inr rfl

theorem outputs_cons_eps (x : Sym) (l : List (Sym × Sym)) : outputs ((x, epsilon) :: l) = outputs l := by simp [outputs]

theorem outputs_cons {y : Sym} (hy : y ≠ epsilon) (x : Sym) (l : List (Sym × Sym)) :
    outputs ((x, y) :: l) = (y, y) :: outputs l := by simp [outputs, hy]

theorem outputs_strip (l : List (Sym × Sym)) : outputs (strip l) = outputs l := by
  induction l with
  | nil => rfl
  | cons p l ih =>
    by_cases hp : p = (epsilon, epsilon)
    · subst hp; rw [strip_cons_eps, outputs_cons_eps, ih]
    · rw [strip_cons hp]
      obtain ⟨x, y⟩ := p
      by_cases hy : y = epsilon
      · subst hy; rw [outputs_cons_eps, outputs_cons_eps, ih]
      · rw [outputs_cons hy, outputs_cons hy, ih]

theorem product_split (hg : Good g) (hh : Good h) (hid : ∀ p, HasLabel h p → p.1 = p.2) {k q : Nat} {l : List (Sym × Sym)}
    {w : Int} (hp : Path (product g h) k l w q) (s t : Nat) (hs : s < g.states.length) (ht : t < h.states.length)
    (hk : k = s * h.states.length + t) :
    ∃ s' t' l₁ w₁ l₂ w₂, s' < g.states.length ∧ t' < h.states.length ∧ q = s' * h.states.length + t' ∧
      Path g s l₁ w₁ s' ∧ Path h t l₂ w₂ t' ∧ strip l₁ = strip l ∧ strip l₂ = outputs l ∧ w = w₁ + w₂ := by
  induction hp generalizing s t with
  | nil k => exact ⟨s, t, [], 0, [], 0, hs, ht, hk, .nil s, .nil t, rfl, rfl, rfl⟩
  | @cons k q c l w hc _ ih =>
    subst hk
    rw [product_arcs hs ht] at hc
    rcases mem_productArcs.mp hc with ⟨a, ha, e, rfl⟩ | ⟨a, ha, b, hb, e, e', rfl⟩ | ⟨b, hb, e, rfl⟩
    · obtain ⟨s', t', l₁, w₁, l₂, w₂, h1, h2, h3, h4, h5, h6, h7, rfl⟩ := ih a.target t (hg.wf.targets _ _ ha) ht rfl
      refine ⟨s', t', _, _, l₂, w₂, h1, h2, h3, .cons ha h4, h5, ?_, ?_, by simp only []; omega⟩
      · simp only [strip, List.filter_cons] at h6 ⊢; rw [h6]
      · rw [h7, e, outputs_cons_eps]
    · obtain ⟨s', t', l₁, w₁, l₂, w₂, h1, h2, h3, h4, h5, h6, h7, rfl⟩ :=
        ih a.target b.target (hg.wf.targets _ _ ha) (hh.wf.targets _ _ hb) rfl
      have e2 : b.out = a.out := by rw [← e']; exact (hid _ ⟨t, b, hb, rfl⟩).symm
      refine ⟨s', t', _, _, _, _, h1, h2, h3, .cons ha h4, .cons hb h5, ?_, ?_, by simp only []; omega⟩
      · simp only [strip, List.filter_cons] at h6 ⊢; rw [h6]
      · rw [e', e2, strip_cons (by simp [e]), h7, outputs_cons e]
    · obtain ⟨s', t', l₁, w₁, l₂, w₂, h1, h2, h3, h4, h5, h6, h7, rfl⟩ := ih s b.target hs (hh.wf.targets _ _ hb) rfl
      have e2 : b.out = epsilon := by rw [← e]; exact (hid _ ⟨t, b, hb, rfl⟩).symm
      refine ⟨s', t', l₁, w₁, _, _, h1, h2, h3, h4, .cons hb h5, ?_, ?_, by simp only []; omega⟩
      · rw [strip_cons_eps, h6]
      · rw [e, e2, strip_cons_eps, h7, outputs_cons_eps]

theorem product_merge (hg : Good g) (hh : Good h) (hid : ∀ p, HasLabel h p → p.1 = p.2) (m : Nat) {s s' t t' : Nat}
    {l₁ l₂ : List (Sym × Sym)} {w₁ w₂ : Int} (h1 : Path g s l₁ w₁ s') (h2 : Path h t l₂ w₂ t') (hs : s < g.states.length)
    (ht : t < h.states.length) (he : strip l₂ = outputs l₁) (hm : l₁.length + l₂.length ≤ m) :
    ∃ l, Path (product g h) (s * h.states.length + t) l (w₁ + w₂) (s' * h.states.length + t') ∧ strip l = strip l₁ := by
  induction m generalizing s t l₁ l₂ w₁ w₂ with
  | zero =>
    have e1 : l₁ = [] := List.eq_nil_of_length_eq_zero (by omega)
    have e2 : l₂ = [] := List.eq_nil_of_length_eq_zero (by omega)
    subst e1 e2
    cases h1
    cases h2
    exact ⟨[], .nil _, rfl⟩
  | succ m ih =>
    have left : ∀ {a : Arc} {l₁' : List (Sym × Sym)} {w₁' : Int}, a ∈ g.arcs s → Path g a.target l₁' w₁' s' →
        l₁ = (a.inp, a.out) :: l₁' → w₁ = a.weight + w₁' → a.out = epsilon →
        ∃ l, Path (product g h) (s * h.states.length + t) l (w₁ + w₂) (s' * h.states.length + t') ∧ strip l = strip l₁ := by
      intro a l₁' w₁' ha hp e1 e2 e
      subst e1 e2
      rw [e, outputs_cons_eps] at he
      obtain ⟨l, hl, hst⟩ := ih hp h2 (hg.wf.targets _ _ ha) ht he (by simp at hm; omega)
      refine ⟨(a.inp, a.out) :: l, ?_, by simp only [strip, List.filter_cons] at hst ⊢; rw [hst]⟩
      rw [Int.add_assoc]
      exact Path.cons (a := { a with target := a.target * h.states.length + t })
        (by rw [product_arcs hs ht]; exact mem_productArcs.mpr (.inl ⟨a, ha, e, rfl⟩)) hl
    cases h2 with
    | nil =>
      cases h1 with
      | nil => exact ⟨[], .nil _, rfl⟩
      | @cons _ _ a l₁' w₁' ha hp =>
        by_cases e : a.out = epsilon
        · exact left ha hp rfl rfl e
        · rw [outputs_cons e] at he; cases he
    | @cons _ _ b l₂' w₂' hb hp2 =>
      have hb2 := hid _ ⟨t, b, hb, rfl⟩
      simp only [Arc.label] at hb2
      by_cases eb : b.inp = epsilon
      · rw [eb, show b.out = epsilon from hb2 ▸ eb, strip_cons_eps] at he
        obtain ⟨l, hl, hst⟩ := ih h1 hp2 hs (hh.wf.targets _ _ hb) he (by simp at hm; omega)
        refine ⟨(epsilon, epsilon) :: l, ?_, by rw [strip_cons_eps, hst]⟩
        have := Path.cons (g := product g h) (a := ⟨s * h.states.length + b.target, epsilon, epsilon, b.weight⟩)
          (by rw [product_arcs hs ht]; exact mem_productArcs.mpr (.inr (.inr ⟨b, hb, eb, rfl⟩))) hl
        have e : w₁ + (b.weight + w₂') = b.weight + (w₁ + w₂') := by omega
        rw [e]
        exact this
      · cases h1 with
        | nil =>
          rw [strip_cons (by simp [eb])] at he
          cases he
        | @cons _ _ a l₁' w₁' ha hp =>
          by_cases e : a.out = epsilon
          · exact left ha hp rfl rfl e
          · rw [strip_cons (by simp [eb]), outputs_cons e] at he
            obtain ⟨e3, e4⟩ := List.cons.inj he
            have e5 : b.inp = a.out := (Prod.mk.inj e3).1
            obtain ⟨l, hl, hst⟩ := ih hp hp2 (hg.wf.targets _ _ ha) (hh.wf.targets _ _ hb) e4 (by simp at hm; omega)
            refine ⟨(a.inp, a.out) :: l, ?_, by simp only [strip, List.filter_cons] at hst ⊢; rw [hst]⟩
            have := Path.cons (g := product g h)
              (a := ⟨a.target * h.states.length + b.target, a.inp, a.out, a.weight + b.weight⟩)
              (by rw [product_arcs hs ht]; exact mem_productArcs.mpr (.inr (.inl ⟨a, ha, b, hb, e, e5, rfl⟩))) hl
            have e6 : a.weight + w₁' + (b.weight + w₂') = a.weight + b.weight + (w₁' + w₂') := by omega
            rw [e6]
            exact this

theorem product_cost (hg : Good g) (hh : Good h) (hid : ∀ p, HasLabel h p → p.1 = p.2) (l : List (Sym × Sym)) (w : Int) :
    Cost (product g h) l w ↔ ∃ w₁ w₂, Cost g l w₁ ∧ Cost h (outputs l) w₂ ∧ w = w₁ + w₂ := by
  constructor
  · rintro ⟨l', w', ⟨q, v, f, hp, hf, rfl⟩, rfl, hw⟩
    obtain ⟨s', t', l₁, w₁, l₂, w₂, h1, h2, rfl, h4, h5, h6, h7, rfl⟩ :=
      product_split hg hh hid hp 0 0 hg.wf.nonempty hh.wf.nonempty (by simp)
    obtain ⟨a, b, ha, hb, rfl⟩ := (product_final h1 h2 f).mp hf
    refine ⟨w - (w₂ + b), w₂ + b, ⟨l₁, w₁ + a, ⟨s', w₁, a, h4, ha, rfl⟩, h6, by omega⟩, ⟨l₂, w₂ + b, ⟨t', w₂, b, h5, hb, rfl⟩, ?_,
      Int.le_refl _⟩, by omega⟩
    rw [h7, outputs_strip]
  · rintro ⟨u₁, u₂, ⟨l₁, w₁, ⟨s', v₁, a, h1, ha, rfl⟩, rfl, hw1⟩, ⟨l₂, w₂, ⟨t', v₂, b, h2, hb, rfl⟩, e, hw2⟩, rfl⟩
    obtain ⟨l, hl, hst⟩ := product_merge hg hh hid _ h1 h2 hg.wf.nonempty hh.wf.nonempty (by rw [e, outputs_strip])
      (Nat.le_refl _)
    refine ⟨l, v₁ + v₂ + (a + b), ⟨_, v₁ + v₂, a + b, by simpa using hl, ?_, rfl⟩, hst, by omega⟩
    exact (product_final (hg.wf.finals _ _ ha) (hh.wf.finals _ _ hb) _).mpr ⟨a, b, ha, hb, rfl⟩

end

/-! ## The reference back-end -/

/-- A back-end on graphs (no code of the repository). -/
def reference : Backend where
  optimize := id
  star g := joined 1 [(0, 0)] [(⟨0, 0, 0⟩, g)]
  concat g h := joined 3 [(2, 0)] [(⟨0, 1, 0⟩, g), (⟨1, 2, 0⟩, h)]
  disjunct g h := joined 2 [(1, 0)] [(⟨0, 1, 0⟩, g), (⟨0, 1, 0⟩, h)]
  compose := product

theorem strip_wrapped (m l : List (Sym × Sym)) :
    strip ((epsilon, epsilon) :: (m ++ (epsilon, epsilon) :: l)) = strip m ++ strip l := by
  rw [strip_cons_eps, strip_append, strip_cons_eps]

theorem star_walk {g : Graph} {s q : Nat} {l : List (Sym × Sym)} {w : Int} (h : Walk [(⟨0, 0, 0⟩, g)] s l w q) :
    Star (Cost g) (strip l) w := by
  induction h with
  | nil s => exact .nil (Int.le_refl _)
  | @step e q m l v w he hacc _ ih =>
    simp only [List.mem_singleton] at he
    subst he
    rw [strip_wrapped]
    simpa using Star.cons ⟨m, v, hacc, rfl, Int.le_refl _⟩ ih

theorem walk_star {g : Graph} {l : List (Sym × Sym)} {w : Int} (h : Star (Cost g) l w) :
    ∃ l' w', Walk [(⟨0, 0, 0⟩, g)] 0 l' w' 0 ∧ strip l' = l ∧ w' ≤ w := by
  induction h with
  | nil hw => exact ⟨[], 0, .nil 0, rfl, hw⟩
  | cons hc _ ih =>
    obtain ⟨m, v, hacc, rfl, hv⟩ := hc
    obtain ⟨l', w', h1, rfl, h2⟩ := ih
    refine ⟨_, _, Walk.step (e := (⟨0, 0, 0⟩, g)) (by simp) hacc h1, strip_wrapped _ _, ?_⟩
    simp only []
    omega

theorem star_joined_cost {g : Graph} (hg : Good g) (l : List (Sym × Sym)) (w : Int) :
    Cost (joined 1 [(0, 0)] [(⟨0, 0, 0⟩, g)]) l w ↔ Star (Cost g) l w := by
  show Cost (joined 1 [(0, 0)] [(⟨0, 0, 0⟩, g)]) l w ↔ _
  have hacc := joined_accepts (n := 1) (fs := [(0, 0)]) (subs := [(⟨0, 0, 0⟩, g)]) (by omega) (by simp) (by simp)
    (by simpa using hg)
  constructor
  · rintro ⟨l', w', ha, rfl, hw⟩
    obtain ⟨q, v, f, h1, h2, rfl⟩ := (hacc _ _).mp ha
    simp only [List.mem_singleton, Prod.mk.injEq] at h2
    obtain ⟨rfl, rfl⟩ := h2
    have := star_walk h1
    have mono : ∀ {l : List (Sym × Sym)} {v w : Int}, Star (Cost g) l v → v ≤ w → Star (Cost g) l w := by
      intro l v w h
      induction h generalizing w with
      | nil h => intro hw; exact .nil (by omega)
      | @cons l l' v v' hc _ ih =>
        intro hw
        have := Star.cons hc (ih (w := w - v) (by omega))
        have e : v + (w - v) = w := by omega
        rwa [e] at this
    exact mono this (by omega)
  · intro h
    obtain ⟨l', w', h1, h2, h3⟩ := walk_star h
    exact ⟨l', w' + 0, (hacc _ _).mpr ⟨0, w', 0, h1, by simp, rfl⟩, h2, by omega⟩

theorem star_joined_labels {g : Graph} (hg : Good g) (p : Sym × Sym) (h : HasLabel (joined 1 [(0, 0)] [(⟨0, 0, 0⟩, g)]) p) :
    HasLabel g p ∨ p = (epsilon, epsilon) := by
  rcases joined_labels (n := 1) (fs := [(0, 0)]) (subs := [(⟨0, 0, 0⟩, g)]) (by omega) (by simp) (by simp)
    (by simpa using hg) p h with h | ⟨e, he, h⟩
  · exact .inr h
  · simp only [List.mem_singleton] at he; subst he; exact .inl h

theorem concat_joined_cost {g h : Graph} (hg : Good g) (hh : Good h) (l : List (Sym × Sym)) (w : Int) :
    Cost (joined 3 [(2, 0)] [(⟨0, 1, 0⟩, g), (⟨1, 2, 0⟩, h)]) l w ↔
      ∃ l₁ l₂ w₁ w₂, Cost g l₁ w₁ ∧ Cost h l₂ w₂ ∧ l = l₁ ++ l₂ ∧ w = w₁ + w₂ := by
  show Cost (joined 3 [(2, 0)] [(⟨0, 1, 0⟩, g), (⟨1, 2, 0⟩, h)]) l w ↔ _
  have hacc := joined_accepts (n := 3) (fs := [(2, 0)]) (subs := [(⟨0, 1, 0⟩, g), (⟨1, 2, 0⟩, h)]) (by omega) (by simp)
    (by simp) (by simp [hg, hh])
  constructor
  · rintro ⟨l', w', ha, rfl, hw⟩
    obtain ⟨q, v, f, h1, h2, rfl⟩ := (hacc _ _).mp ha
    simp only [List.mem_singleton, Prod.mk.injEq] at h2
    obtain ⟨rfl, rfl⟩ := h2
    rcases h1.inv with ⟨h, _, _⟩ | ⟨e, he, ho, m1, v1, l1, w1, a1, h1b, e1, rfl⟩
    · cases h
    simp only [List.mem_cons, List.not_mem_nil, or_false] at he
    rcases he with rfl | rfl
    swap
    · cases ho
    rcases h1b.inv with ⟨h, _, _⟩ | ⟨e, he, ho, m2, v2, l2, w2, a2, h2, e2, rfl⟩
    · cases h
    simp only [List.mem_cons, List.not_mem_nil, or_false] at he
    rcases he with rfl | rfl
    · cases ho
    rcases h2.inv with ⟨_, rfl, rfl⟩ | ⟨e, he, ho, _⟩
    · refine ⟨strip m1, strip m2, w - v2, v2, ⟨m1, v1, a1, rfl, ?_⟩, ⟨m2, v2, a2, rfl, Int.le_refl _⟩, ?_, by omega⟩
      · simp only [] at hw; omega
      · rw [e1, e2]; simp [strip]
    · simp only [List.mem_cons, List.not_mem_nil, or_false] at he
      rcases he with rfl | rfl <;> cases ho
  · rintro ⟨_, _, u1, u2, ⟨m1, v1, a1, rfl, h1⟩, ⟨m2, v2, a2, rfl, h2⟩, rfl, rfl⟩
    have hw := Walk.step (subs := [(⟨0, 1, 0⟩, g), (⟨1, 2, 0⟩, h)]) (e := (⟨0, 1, 0⟩, g)) (by simp) a1
      (Walk.step (e := (⟨1, 2, 0⟩, h)) (by simp) a2 (Walk.nil 2))
    refine ⟨_, _, (hacc _ _).mpr ⟨2, _, 0, hw, by simp, rfl⟩, ?_, ?_⟩
    · rw [strip_wrapped, strip_wrapped]; simp [strip]
    · simp only []; omega

theorem concat_joined_labels {g h : Graph} (hg : Good g) (hh : Good h) (p : Sym × Sym)
    (hp : HasLabel (joined 3 [(2, 0)] [(⟨0, 1, 0⟩, g), (⟨1, 2, 0⟩, h)]) p) : HasLabel g p ∨ HasLabel h p ∨ p = (epsilon, epsilon) := by
  rcases joined_labels (n := 3) (fs := [(2, 0)]) (subs := [(⟨0, 1, 0⟩, g), (⟨1, 2, 0⟩, h)]) (by omega) (by simp) (by simp)
    (by simp [hg, hh]) p hp with h | ⟨e, he, h⟩
  · exact .inr (.inr h)
  · simp only [List.mem_cons, List.not_mem_nil, or_false] at he
    rcases he with rfl | rfl
    · exact .inl h
    · exact .inr (.inl h)

theorem disjunct_joined_cost {g h : Graph} (hg : Good g) (hh : Good h) (l : List (Sym × Sym)) (w : Int) :
    Cost (joined 2 [(1, 0)] [(⟨0, 1, 0⟩, g), (⟨0, 1, 0⟩, h)]) l w ↔ Cost g l w ∨ Cost h l w := by
  show Cost (joined 2 [(1, 0)] [(⟨0, 1, 0⟩, g), (⟨0, 1, 0⟩, h)]) l w ↔ _
  have hacc := joined_accepts (n := 2) (fs := [(1, 0)]) (subs := [(⟨0, 1, 0⟩, g), (⟨0, 1, 0⟩, h)]) (by omega) (by simp)
    (by simp) (by simp [hg, hh])
  constructor
  · rintro ⟨l', w', ha, rfl, hw⟩
    obtain ⟨q, v, f, h1, h2, rfl⟩ := (hacc _ _).mp ha
    simp only [List.mem_singleton, Prod.mk.injEq] at h2
    obtain ⟨rfl, rfl⟩ := h2
    rcases h1.inv with ⟨h, _, _⟩ | ⟨e, he, ho, m1, v1, l1, w1, a1, h1b, e1, rfl⟩
    · cases h
    have ht : e.1.target = 1 ∧ e.1.weight = 0 := by
      simp only [List.mem_cons, List.not_mem_nil, or_false] at he
      rcases he with rfl | rfl <;> exact ⟨rfl, rfl⟩
    rw [ht.1] at h1b
    rw [ht.2] at hw
    rcases h1b.inv with ⟨_, rfl, rfl⟩ | ⟨e', he', ho', _⟩
    · rw [e1, show strip ([] : List (Sym × Sym)) = [] from rfl, List.append_nil]
      simp only [List.mem_cons, List.not_mem_nil, or_false] at he
      rcases he with rfl | rfl
      · exact .inl ⟨m1, v1, a1, rfl, by omega⟩
      · exact .inr ⟨m1, v1, a1, rfl, by omega⟩
    · simp only [List.mem_cons, List.not_mem_nil, or_false] at he'
      rcases he' with rfl | rfl <;> cases ho'
  · rintro (⟨m1, v1, a1, rfl, h1⟩ | ⟨m1, v1, a1, rfl, h1⟩)
    · have hw := Walk.step (subs := [(⟨0, 1, 0⟩, g), (⟨0, 1, 0⟩, h)]) (e := (⟨0, 1, 0⟩, g)) (by simp) a1 (Walk.nil 1)
      refine ⟨_, _, (hacc _ _).mpr ⟨1, _, 0, hw, by simp, rfl⟩, ?_, ?_⟩
      · rw [strip_wrapped]; simp [strip]
      · simp only []; omega
    · have hw := Walk.step (subs := [(⟨0, 1, 0⟩, g), (⟨0, 1, 0⟩, h)]) (e := (⟨0, 1, 0⟩, h)) (by simp) a1 (Walk.nil 1)
      refine ⟨_, _, (hacc _ _).mpr ⟨1, _, 0, hw, by simp, rfl⟩, ?_, ?_⟩
      · rw [strip_wrapped]; simp [strip]
      · simp only []; omega

theorem disjunct_joined_labels {g h : Graph} (hg : Good g) (hh : Good h) (p : Sym × Sym)
    (hp : HasLabel (joined 2 [(1, 0)] [(⟨0, 1, 0⟩, g), (⟨0, 1, 0⟩, h)]) p) : HasLabel g p ∨ HasLabel h p ∨ p = (epsilon, epsilon) := by
  rcases joined_labels (n := 2) (fs := [(1, 0)]) (subs := [(⟨0, 1, 0⟩, g), (⟨0, 1, 0⟩, h)]) (by omega) (by simp) (by simp)
    (by simp [hg, hh]) p hp with h | ⟨e, he, h⟩
  · exact .inr (.inr h)
  · simp only [List.mem_cons, List.not_mem_nil, or_false] at he
    rcases he with rfl | rfl
    · exact .inl h
    · exact .inr (.inl h)

/-- The reference back-end meets all assumptions. -/
theorem reference_ok : reference.Ok where
  optimize_good _ h := h
  optimize_cost _ _ _ _ := Iff.rfl
  optimize_labels _ _ _ h := .inl h
  star_good g _ := joined_good (by omega) (by simp) (by simp) _
  star_cost _ hg := star_joined_cost hg
  star_labels _ hg := star_joined_labels hg
  concat_good g h _ _ := joined_good (by omega) (by simp) (by simp) _
  concat_cost _ _ hg hh _ _ := concat_joined_cost hg hh
  concat_labels _ _ hg hh _ _ := concat_joined_labels hg hh
  disjunct_good g h _ _ := joined_good (by omega) (by simp) (by simp) _
  disjunct_cost _ _ hg hh _ _ := disjunct_joined_cost hg hh
  disjunct_labels _ _ hg hh _ _ := disjunct_joined_labels hg hh
  compose_good g h hg hh := product_good hg hh
  compose_cost g h hg hh _ _ hid l w := product_cost hg hh hid l w
  compose_labels g h _ hh _ _ _ p hp := product_labels hh p hp

end Hfst.Lexc
