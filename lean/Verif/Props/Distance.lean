import Verif.Model.Distance
import Verif.Lemmas.Graph
import Verif.Props.Ambiguity

/-!
# C29: path lengths
-/
namespace Hfst.Basic

/-- `q` can be reached from the start by `d` transitions. -/
def At (g : Graph) (d q : Nat) : Prop := ∃ l w, Path g 0 l w q ∧ l.length = d

section setAt
variable {g : Graph}

/-- What the sort knows: `R d q` says that `q` was seen at distance `d`. -/
structure SortInv (R : Nat → Nat → Prop) (overwrite : Bool) (ts : TopSort) : Prop where
  len : ∀ e q, R e q → e < ts.levels.length
  lev : ∀ e q, q ∈ (ts.levels[e]?).getD [] ↔ R e q ∧ (overwrite = true → ∀ e', e < e' → ¬ R e' q)
  there : ∀ q p, ts.dist[q]? = some (some p) → R p q ∧ ∀ e, R e q → e ≤ p
  away : ∀ q, ts.dist[q]? = some none → ∀ e, ¬ R e q

theorem SortInv.congr {R R' : Nat → Nat → Prop} {ow : Bool} {ts : TopSort} (h : SortInv R ow ts) (he : ∀ e q, R e q ↔ R' e q) :
    SortInv R' ow ts := by
  have : R = R' := by funext e q; exact propext (he e q)
  exact this ▸ h

theorem padTo_get (levels : List (List Nat)) (d e : Nat) : ((padTo levels d)[e]?).getD [] = (levels[e]?).getD [] := by
  unfold padTo
  rw [List.getElem?_append]
  split_ifs with h
  · rfl
  · rw [List.getElem?_eq_none (not_lt.mp h), List.getElem?_replicate]
    split_ifs <;> rfl

theorem padTo_length (levels : List (List Nat)) (d : Nat) : (padTo levels d).length = max levels.length (d + 1) := by
  simp [padTo]; omega

theorem modify_get {levels : List (List Nat)} {d e : Nat} {f : List Nat → List Nat} (hd : d < levels.length) :
    ((levels.modify d f)[e]?).getD [] = if e = d then f ((levels[e]?).getD []) else (levels[e]?).getD [] := by
  rw [List.getElem?_modify]
  by_cases h : e = d
  · subst h; rw [if_pos rfl, List.getElem?_eq_getElem hd]; simp
  · have h' : ¬ d = e := fun e => h e.symm
    rw [if_neg h]; simp [h']

theorem setAt_spec {R : Nat → Nat → Prop} {ow : Bool} {ts : TopSort} (h : SortInv R ow ts) {s m : Nat}
    (hm : ∀ e q, R e q → e ≤ m) (hs : s < ts.dist.length) :
    ∃ ts', ts.setAt s m ow = .ok ts' ∧ SortInv (fun e q => R e q ∨ (e = m ∧ q = s)) ow ts' ∧
      ts'.dist.length = ts.dist.length ∧ ts'.levels.length = max ts.levels.length (m + 1) := by
  have hdist : ∀ ts' : TopSort, ts'.dist = ts.dist.set s (some m) →
      (∀ q p, ts'.dist[q]? = some (Option.some p) → (R p q ∨ (p = m ∧ q = s)) ∧ ∀ e, (R e q ∨ (e = m ∧ q = s)) → e ≤ p) ∧
      (∀ q, ts'.dist[q]? = Option.some none → ∀ e, ¬ (R e q ∨ (e = m ∧ q = s))) := by
    intro ts' e
    rw [e]
    constructor
    · intro q p hq
      rw [List.getElem?_set] at hq
      split_ifs at hq with h1
      · simp only [Option.some.injEq] at hq
        subst hq; subst h1
        refine ⟨.inr ⟨rfl, rfl⟩, ?_⟩
        rintro e (he | ⟨rfl, _⟩)
        · exact hm _ _ he
        · exact Nat.le_refl _
      · obtain ⟨k1, k2⟩ := h.there q p hq
        refine ⟨.inl k1, ?_⟩
        rintro e (he | ⟨_, rfl⟩)
        · exact k2 e he
        · exact absurd rfl h1
    · intro q hq e
      rw [List.getElem?_set] at hq
      split_ifs at hq with h1
      · simp at hq
      · rintro (he | ⟨_, rfl⟩)
        · exact h.away q hq e he
        · exact h1 rfl
  have hlen : ∀ e q, (R e q ∨ (e = m ∧ q = s)) → e < max ts.levels.length (m + 1) := by
    rintro e q (he | ⟨rfl, _⟩)
    · have := h.len e q he; omega
    · omega
  have hd : m < (padTo ts.levels m).length := by rw [padTo_length]; omega
  unfold TopSort.setAt
  dsimp only
  rw [List.getElem?_eq_getElem hs]
  -- the case in which nothing is erased
  have plain : (ow = true → ∀ e, e ≠ m → R e s → R m s) → ∃ ts', (Outcome.ok ⟨ts.dist.set s (some m),
      (padTo ts.levels m).modify m (setInsert · s)⟩ : Outcome TopSort) = .ok ts' ∧
      SortInv (fun e q => R e q ∨ (e = m ∧ q = s)) ow ts' ∧
      ts'.dist.length = ts.dist.length ∧ ts'.levels.length = max ts.levels.length (m + 1) := by
    intro hno
    refine ⟨_, rfl, ⟨?_, ?_, (hdist _ rfl).1, (hdist _ rfl).2⟩, by simp, by simp [padTo_length]⟩
    · simpa [padTo_length] using hlen
    · intro e q
      dsimp only
      rw [modify_get hd, padTo_get]
      by_cases he : e = m
      · rw [if_pos he, mem_setInsert, h.lev]
        subst he
        constructor
        · rintro (rfl | ⟨h1, h2⟩)
          · refine ⟨.inr ⟨rfl, rfl⟩, ?_⟩
            rintro _ e' he' (h3 | ⟨h3, _⟩)
            · have := hm _ _ h3; omega
            · omega
          · refine ⟨.inl h1, ?_⟩
            rintro ho e' he' (h3 | ⟨h3, _⟩)
            · exact h2 ho e' he' h3
            · omega
        · rintro ⟨h1 | ⟨_, rfl⟩, h2⟩
          · exact .inr ⟨h1, fun ho e' he' h3 => h2 ho e' he' (.inl h3)⟩
          · exact .inl rfl
      · rw [if_neg he, h.lev]
        constructor
        · rintro ⟨h1, h2⟩
          refine ⟨.inl h1, ?_⟩
          rintro ho e' he' (h3 | ⟨_, h3⟩)
          · exact h2 ho e' he' h3
          · subst h3
            have := hm _ _ h1
            exact h2 ho m (by omega) (hno ho e he h1)
        · rintro ⟨h1 | ⟨h1, _⟩, h2⟩
          · exact ⟨h1, fun ho e' he' h3 => h2 ho e' he' (.inl h3)⟩
          · exact absurd h1 he
  cases hv : ts.dist[s] with
  | none =>
    dsimp only
    exact plain (fun _ e _ hr => (h.away s (by rw [List.getElem?_eq_getElem hs, hv]) e hr).elim)
  | some p =>
    dsimp only
    obtain ⟨hp, hpm⟩ := h.there s p (by rw [List.getElem?_eq_getElem hs, hv])
    by_cases hc : p ≠ m ∧ ow = true
    · rw [if_pos hc]
      have hpl : p < (padTo ts.levels m).length := by
        rw [padTo_length]; have := h.len p s hp; omega
      rw [if_pos hpl]
      refine ⟨_, rfl, ⟨?_, ?_, (hdist _ rfl).1, (hdist _ rfl).2⟩, by simp, by simp [padTo_length]⟩
      · simpa [padTo_length] using hlen
      · intro e q
        dsimp only
        rw [modify_get (by simpa using hd), modify_get hpl, padTo_get]
        by_cases he : e = m
        · rw [if_pos he, if_neg (by rw [he]; exact fun h => hc.1 h.symm), mem_setInsert, h.lev]
          subst he
          constructor
          · rintro (rfl | ⟨h1, h2⟩)
            · refine ⟨.inr ⟨rfl, rfl⟩, ?_⟩
              rintro _ e' he' (h3 | ⟨h3, _⟩)
              · have := hm _ _ h3; omega
              · omega
            · refine ⟨.inl h1, ?_⟩
              rintro ho e' he' (h3 | ⟨h3, _⟩)
              · exact h2 ho e' he' h3
              · omega
          · rintro ⟨h1 | ⟨_, rfl⟩, h2⟩
            · exact .inr ⟨h1, fun ho e' he' h3 => h2 ho e' he' (.inl h3)⟩
            · exact .inl rfl
        · rw [if_neg he]
          have key : (q ∈ if e = p then setErase ((ts.levels[e]?).getD []) s else (ts.levels[e]?).getD []) ↔
              (R e q ∧ (ow = true → ∀ e', e < e' → ¬ R e' q)) ∧ q ≠ s := by
            by_cases hep : e = p
            · rw [if_pos hep, mem_setErase, h.lev]
            · rw [if_neg hep, h.lev]
              constructor
              · rintro ⟨h1, h2⟩
                refine ⟨⟨h1, h2⟩, ?_⟩
                rintro rfl
                have := hpm e h1
                exact h2 hc.2 p (by omega) hp
              · exact fun h => h.1
          rw [key]
          constructor
          · rintro ⟨⟨h1, h2⟩, h4⟩
            refine ⟨.inl h1, ?_⟩
            rintro ho e' he' (h3 | ⟨_, h3⟩)
            · exact h2 ho e' he' h3
            · exact h4 h3
          · rintro ⟨h1 | ⟨h1, _⟩, h2⟩
            · refine ⟨⟨h1, fun ho e' he' h3 => h2 ho e' he' (.inl h3)⟩, ?_⟩
              rintro rfl
              have := hm _ _ h1
              exact h2 hc.2 m (by omega) (.inr ⟨rfl, rfl⟩)
            · exact absurd h1 he
    · rw [if_neg hc]
      refine plain ?_
      intro ho e he hr
      have hpm' : p = m := by
        by_contra hne; exact hc ⟨hne, ho⟩
      exact hpm' ▸ hp

theorem setAll_spec {ow : Bool} {m : Nat} : ∀ (ss : List Nat) (R : Nat → Nat → Prop) (ts : TopSort), SortInv R ow ts →
    (∀ e q, R e q → e ≤ m) → (∀ s ∈ ss, s < ts.dist.length) →
    ∃ ts', TopSort.setAll m ow ss ts = .ok ts' ∧ SortInv (fun e q => R e q ∨ (e = m ∧ q ∈ ss)) ow ts' ∧
      ts'.dist.length = ts.dist.length
  | [], R, ts, h, _, _ => ⟨ts, rfl, h.congr (by simp), rfl⟩
  | s :: ss, R, ts, h, hm, hs => by
    obtain ⟨ts1, e1, h1, l1, _⟩ := setAt_spec h hm (hs s (by simp))
    obtain ⟨ts2, e2, h2, l2⟩ := setAll_spec (m := m) ss _ ts1 h1 (by
      rintro e q (he | ⟨rfl, _⟩)
      · exact hm e q he
      · exact Nat.le_refl _) (fun x hx => by rw [l1]; exact hs x (by simp [hx]))
    refine ⟨ts2, ?_, h2.congr ?_, l2.trans l1⟩
    · rw [TopSort.setAll, e1]; exact e2
    · intro e q
      rw [List.mem_cons]
      constructor
      · rintro ((h | ⟨h, h'⟩) | ⟨h, h'⟩)
        · exact .inl h
        · exact .inr ⟨h, .inl h'⟩
        · exact .inr ⟨h, .inr h'⟩
      · rintro (h | ⟨h, h' | h'⟩)
        · exact .inl (.inl h)
        · exact .inl (.inr ⟨h, h'⟩)
        · exact .inr ⟨h, h'⟩

theorem mem_foldl_insert : ∀ (as : List Arc) (found : List Nat) (q : Nat),
    q ∈ as.foldl (fun f a => setInsert f a.target) found ↔ q ∈ found ∨ ∃ a ∈ as, a.target = q
  | [], _, _ => by simp
  | a :: as, found, q => by
    rw [List.foldl_cons, mem_foldl_insert as, mem_setInsert]
    constructor
    · rintro ((h | h) | ⟨b, hb, h⟩)
      · exact .inr ⟨a, by simp, h.symm⟩
      · exact .inl h
      · exact .inr ⟨b, by simp [hb], h⟩
    · rintro (h | ⟨b, hb, h⟩)
      · exact .inl (.inr h)
      · rcases List.mem_cons.mp hb with rfl | hb
        · exact .inl (.inl h.symm)
        · exact .inr ⟨b, hb, h⟩

theorem newStates_spec : ∀ (ss found : List Nat), (∀ s ∈ ss, s < g.states.length) →
    ∃ r, newStates g ss found = .ok r ∧ ∀ q, q ∈ r ↔ q ∈ found ∨ ∃ s ∈ ss, ∃ a ∈ g.arcs s, a.target = q
  | [], found, _ => ⟨found, rfl, by simp⟩
  | s :: ss, found, h => by
    have hs := h s (by simp)
    have harcs := arcs_of_get (List.getElem?_eq_getElem hs)
    rw [newStates, List.getElem?_eq_getElem hs]
    dsimp only
    obtain ⟨r, e, hr⟩ := newStates_spec ss (g.states[s].foldl (fun f a => setInsert f a.target) found)
      (fun x hx => h x (by simp [hx]))
    refine ⟨r, e, fun q => ?_⟩
    rw [hr, mem_foldl_insert, ← harcs]
    simp only [List.mem_cons, exists_eq_or_imp, or_assoc]

/-- The states at one more step. -/
theorem at_succ {d q : Nat} : At g (d + 1) q ↔ ∃ s, At g d s ∧ ∃ a ∈ g.arcs s, a.target = q := by
  constructor
  · rintro ⟨l, w, h, hl⟩
    have key : ∀ {s q : Nat} {l : List (Sym × Sym)} {w : Int}, Path g s l w q → ∀ d, l.length = d + 1 →
        ∃ t l' w', Path g s l' w' t ∧ l'.length = d ∧ ∃ a ∈ g.arcs t, a.target = q := by
      intro s q l w h
      induction h with
      | nil => intro d h; simp at h
      | cons ha hp ih =>
        intro d hd
        cases d with
        | zero =>
          rename_i s q a l w
          simp at hd
          subst hd
          cases hp
          exact ⟨s, [], 0, .nil s, rfl, a, ha, rfl⟩
        | succ d =>
          obtain ⟨t, l', w', h1, h2, h3⟩ := ih d (by simpa using hd)
          exact ⟨t, _, _, .cons ha h1, by simp [h2], h3⟩
    obtain ⟨t, l', w', h1, h2, h3⟩ := key h d hl
    exact ⟨t, ⟨l', w', h1, h2⟩, h3⟩
  · rintro ⟨s, ⟨l, w, h, hl⟩, a, ha, rfl⟩
    exact ⟨_, _, h.append (.single ha), by simp [hl]⟩

theorem at_lt (hg : WF g) {d q : Nat} (h : At g d q) : q < g.states.length := by
  obtain ⟨l, w, h, _⟩ := h
  exact h.exists_lt hg hg.nonempty

theorem at_zero {q : Nat} : At g 0 q ↔ q = 0 := by
  constructor
  · rintro ⟨l, w, h, hl⟩
    cases h with
    | nil => rfl
    | cons => simp at hl
  · rintro rfl
    exact ⟨[], 0, .nil 0, rfl⟩

/-- One round of the loop. -/
theorem topRound (hg : WF g) {ow : Bool} {d : Nat} {ts : TopSort} (h : SortInv (fun e q => e ≤ d ∧ At g e q) ow ts)
    (hl : ts.dist.length = g.states.length) (n : Nat) :
    ∃ ts', ts'.dist.length = g.states.length ∧ SortInv (fun e q => e ≤ d + 1 ∧ At g e q) ow ts' ∧
      ((∀ q, ¬ At g (d + 1) q) → topLoop g ow (n + 1) d ts = .ok ts'.levels) ∧
      ((∃ q, At g (d + 1) q) → topLoop g ow (n + 1) d ts = topLoop g ow n (d + 1) ts') := by
  have hd : d < (padTo ts.levels d).length := by rw [padTo_length]; omega
  have hst : ∀ q, q ∈ (padTo ts.levels d)[d] ↔ At g d q := by
    intro q
    have := h.lev d q
    rw [← padTo_get _ d, List.getElem?_eq_getElem hd, Option.getD_some] at this
    rw [this]
    constructor
    · exact fun h => h.1.2
    · exact fun h => ⟨⟨Nat.le_refl _, h⟩, fun _ e' h1 h2 => by omega⟩
  obtain ⟨found, e1, h1⟩ := newStates_spec (g := g) (padTo ts.levels d)[d] [] (fun s hs => at_lt hg ((hst s).mp hs))
  have h1' : ∀ q, q ∈ found ↔ At g (d + 1) q := by
    intro q
    rw [h1, at_succ]
    simp [hst]
  have hpad : SortInv (fun e q => e ≤ d ∧ At g e q) ow ⟨ts.dist, padTo ts.levels d⟩ :=
    ⟨fun e q hr => by have := h.len e q hr; rw [padTo_length]; omega,
     fun e q => by dsimp only; rw [padTo_get]; exact h.lev e q, h.there, h.away⟩
  obtain ⟨ts', e2, h2, l2⟩ := setAll_spec (m := d + 1) found _ _ hpad (fun e q he => by have := he.1; omega)
    (fun s hs => by rw [hl]; exact at_lt hg ((h1' s).mp hs))
  refine ⟨ts', l2.trans hl, h2.congr ?_, ?_, ?_⟩
  · intro e q
    rw [h1']
    constructor
    · rintro (⟨h, h'⟩ | ⟨rfl, h⟩)
      · exact ⟨by omega, h'⟩
      · exact ⟨Nat.le_refl _, h⟩
    · rintro ⟨h, h'⟩
      by_cases he : e = d + 1
      · subst he; exact .inr ⟨rfl, h'⟩
      · exact .inl ⟨by omega, h'⟩
  · intro hno
    have : found = [] := List.eq_nil_iff_forall_not_mem.mpr fun q hq => hno q ((h1' q).mp hq)
    rw [topLoop]
    rw [List.getElem?_eq_getElem hd]
    dsimp only
    rw [e1]
    dsimp only
    rw [e2]
    dsimp only
    rw [if_pos this]
  · rintro ⟨q, hq⟩
    have : found ≠ [] := List.ne_nil_of_mem ((h1' q).mpr hq)
    rw [topLoop]
    rw [List.getElem?_eq_getElem hd]
    dsimp only
    rw [e1]
    dsimp only
    rw [e2]
    dsimp only
    rw [if_neg this]

theorem at_mono {d d' : Nat} (h : ∀ q, ¬ At g d q) (hd : d ≤ d') : ∀ q, ¬ At g d' q := by
  obtain ⟨k, rfl⟩ := Nat.exists_eq_add_of_le hd
  clear hd
  induction k with
  | zero => exact h
  | succ k ih =>
    rintro q hq
    obtain ⟨s, hs, _⟩ := at_succ.mp hq
    exact ih s hs

theorem topLoop_spec (hg : WF g) {ow : Bool} : ∀ (n d : Nat) (ts : TopSort),
    SortInv (fun e q => e ≤ d ∧ At g e q) ow ts → ts.dist.length = g.states.length → (∀ q, ¬ At g (d + n) q) → 0 < n →
    ∃ ts', topLoop g ow n d ts = .ok ts'.levels ∧ SortInv (At g) ow ts'
  | 0, _, _, _, _, _, h => by omega
  | n + 1, d, ts, h, hl, hno, _ => by
    obtain ⟨ts', l', h', k1, k2⟩ := topRound hg h hl n
    by_cases hex : ∃ q, At g (d + 1) q
    · rw [k2 hex]
      refine topLoop_spec hg n (d + 1) ts' h' l' (by
        have e : d + 1 + n = d + (n + 1) := by omega
        rw [e]; exact hno) ?_
      rcases Nat.eq_zero_or_pos n with rfl | hn
      · obtain ⟨q, hq⟩ := hex
        exact absurd hq (hno q)
      · exact hn
    · have hex' : ∀ q, ¬ At g (d + 1) q := fun q hq => hex ⟨q, hq⟩
      refine ⟨ts', k1 hex', h'.congr ?_⟩
      intro e q
      refine ⟨fun h => h.2, fun h => ⟨?_, h⟩⟩
      by_contra hlt
      exact at_mono hex' (by omega) q h

theorem topLoop_endless (hg : WF g) {ow : Bool} (hall : ∀ d, ∃ q, At g d q) : ∀ (n d : Nat) (ts : TopSort),
    SortInv (fun e q => e ≤ d ∧ At g e q) ow ts → ts.dist.length = g.states.length → topLoop g ow n d ts = .undefined
  | 0, _, _, _, _ => rfl
  | n + 1, d, ts, h, hl => by
    obtain ⟨ts', l', h', _, k2⟩ := topRound hg h hl n
    rw [k2 (hall (d + 1))]
    exact topLoop_endless hg hall n (d + 1) ts' h' l'

theorem topsort_start (hg : WF g) (ow : Bool) (fuel : Nat) : ∃ ts, SortInv (fun e q => e ≤ 0 ∧ At g e q) ow ts ∧
    ts.dist.length = g.states.length ∧ topsort fuel g ow = topLoop g ow fuel 0 ts := by
  have h0 : SortInv (fun _ _ => False) ow ⟨List.replicate g.states.length none, []⟩ :=
    ⟨fun _ _ h => h.elim, fun e q => by simp, fun q p h => by
      rw [List.getElem?_replicate] at h; split_ifs at h; simp at h, fun _ _ _ h => h⟩
  obtain ⟨ts, e, h, l, _⟩ := setAt_spec (s := 0) (m := 0) h0 (fun _ _ h => h.elim) (by simpa using hg.nonempty)
  refine ⟨ts, h.congr ?_, by simpa using l, ?_⟩
  · intro e q
    constructor
    · rintro (h | ⟨rfl, rfl⟩)
      · exact h.elim
      · exact ⟨Nat.le_refl _, at_zero.mpr rfl⟩
    · rintro ⟨h1, h2⟩
      obtain rfl : e = 0 := by omega
      exact .inr ⟨rfl, at_zero.mp h2⟩
  · unfold topsort
    rw [if_neg (by have := hg.nonempty; omega), e]

end setAt

/-! ## No cycles, no long paths -/

/-- No state that can be reached lies on a cycle. -/
def Acyclic (g : Graph) : Prop := ∀ s l w, Reachable g s → Path g s l w s → l = []

theorem states_of_path {g : Graph} (hg : WF g) (ha : Acyclic g) {s q : Nat} {l : List (Sym × Sym)} {w : Int}
    (h : Path g s l w q) (hs : Reachable g s) : ∃ vs : List Nat, vs.length = l.length + 1 ∧ vs.Nodup ∧
      (∀ v ∈ vs, v < g.states.length ∧ ∃ l w, Path g s l w v) := by
  have lt : ∀ {s}, Reachable g s → s < g.states.length := fun ⟨_, _, h⟩ => h.exists_lt hg hg.nonempty
  induction h with
  | nil s => exact ⟨[s], rfl, by simp, by simpa using ⟨lt hs, [], 0, .nil s⟩⟩
  | cons hm _ ih =>
    rename_i s _ a _ _ _
    have ht : Reachable g a.target := by
      obtain ⟨l, w, h⟩ := hs
      exact ⟨_, _, h.append (.single hm)⟩
    obtain ⟨vs, h1, h2, h3⟩ := ih ht
    refine ⟨s :: vs, by simp [h1], List.nodup_cons.mpr ⟨?_, h2⟩, ?_⟩
    · intro hv
      obtain ⟨_, l, w, hp⟩ := h3 s hv
      have := ha s _ _ hs (.cons hm hp)
      cases this
    · intro v hv
      rcases List.mem_cons.mp hv with rfl | hv
      · exact ⟨lt hs, [], 0, .nil v⟩
      · obtain ⟨h4, l, w, hp⟩ := h3 v hv
        exact ⟨h4, _, _, .cons hm hp⟩

theorem acyclic_short {g : Graph} (hg : WF g) (ha : Acyclic g) {d : Nat} (hd : g.states.length ≤ d) (q : Nat) :
    ¬ At g d q := by
  rintro ⟨l, w, h, hl⟩
  obtain ⟨vs, h1, h2, h3⟩ := states_of_path hg ha h ⟨[], 0, .nil 0⟩
  have := nodup_le h2 (fun v hv => (h3 v hv).1)
  omega

theorem topsort_spec {g : Graph} (hg : WF g) (ha : Acyclic g) (ow : Bool) {fuel : Nat} (hf : g.states.length ≤ fuel) :
    ∃ ts, topsort fuel g ow = .ok ts.levels ∧ SortInv (At g) ow ts := by
  obtain ⟨ts, h, l, e⟩ := topsort_start hg ow fuel
  rw [e]
  have := hg.nonempty
  exact topLoop_spec hg fuel 0 ts h l (acyclic_short hg ha (by omega)) (by omega)

theorem anyFinal_iff (g : Graph) (l : List Nat) : anyFinal g l = true ↔ ∃ q ∈ l, ∃ f, g.final q = some f := by
  simp [anyFinal, Option.isSome_iff_exists]

/-- `g` accepts something with `k` transitions. -/
def AcceptsLength (g : Graph) (k : Nat) : Prop := ∃ l w, Accepts g l w ∧ l.length = k

theorem acceptsLength_iff {g : Graph} {k : Nat} : AcceptsLength g k ↔ ∃ q f, At g k q ∧ g.final q = some f := by
  constructor
  · rintro ⟨l, w, ⟨q, v, f, h1, h2, _⟩, h3⟩; exact ⟨q, f, ⟨l, v, h1, h3⟩, h2⟩
  · rintro ⟨q, f, ⟨l, v, h1, h3⟩, h2⟩; exact ⟨l, _, ⟨q, v, f, h1, h2, rfl⟩, h3⟩

theorem longestBelow_spec (g : Graph) (levels : List (List Nat)) : ∀ n : Nat,
    (longestBelow g levels n = -1 ∧ ∀ d < n, anyFinal g ((levels[d]?).getD []) = false) ∨
    ∃ k : Nat, longestBelow g levels n = k ∧ k < n ∧ anyFinal g ((levels[k]?).getD []) = true ∧
      ∀ d < n, k < d → anyFinal g ((levels[d]?).getD []) = false
  | 0 => .inl ⟨rfl, by simp⟩
  | n + 1 => by
    rw [longestBelow]
    by_cases h : anyFinal g ((levels[n]?).getD []) = true
    · rw [if_pos h]
      exact .inr ⟨n, rfl, by omega, h, fun d h1 h2 => by omega⟩
    · rw [if_neg h]
      rw [Bool.not_eq_true] at h
      rcases longestBelow_spec g levels n with ⟨h1, h2⟩ | ⟨k, h1, h2, h3, h4⟩
      · refine .inl ⟨h1, fun d hd => ?_⟩
        by_cases hdn : d = n
        · rw [hdn]; exact h
        · exact h2 d (by omega)
      · refine .inr ⟨k, h1, by omega, h3, fun d hd hk => ?_⟩
        by_cases hdn : d = n
        · rw [hdn]; exact h
        · exact h4 d (by omega) hk

theorem sizesBelow_spec (g : Graph) (levels : List (List Nat)) : ∀ n : Nat,
    (sizesBelow g levels n).Pairwise (· > ·) ∧
      ∀ k, k ∈ sizesBelow g levels n ↔ k < n ∧ anyFinal g ((levels[k]?).getD []) = true
  | 0 => by simp [sizesBelow]
  | n + 1 => by
    obtain ⟨h1, h2⟩ := sizesBelow_spec g levels n
    rw [sizesBelow]
    split_ifs with h
    · refine ⟨List.pairwise_cons.mpr ⟨fun k hk => ((h2 k).mp hk).1, h1⟩, fun k => ?_⟩
      rw [List.mem_cons, h2]
      constructor
      · rintro (rfl | ⟨h3, h4⟩)
        · exact ⟨by omega, h⟩
        · exact ⟨by omega, h4⟩
      · rintro ⟨h3, h4⟩
        by_cases e : k = n
        · exact .inl e
        · exact .inr ⟨by omega, h4⟩
    · refine ⟨h1, fun k => ?_⟩
      rw [h2]
      constructor
      · rintro ⟨h3, h4⟩; exact ⟨by omega, h4⟩
      · rintro ⟨h3, h4⟩
        refine ⟨?_, h4⟩
        by_contra hk
        obtain rfl : k = n := by omega
        exact h h4

/-- For an acyclic transducer, the longest path size is the largest number of transitions on a path from the start to a final
state, and -1 if there is no such path. -/
theorem C29 (g : Graph) (hg : WF g) (ha : Acyclic g) (fuel : Nat) (hf : g.states.length ≤ fuel) :
    (longestPathSize fuel g = .ok (-1) ∧ ∀ k, ¬ AcceptsLength g k) ∨
    ∃ k : Nat, longestPathSize fuel g = .ok k ∧ AcceptsLength g k ∧ ∀ k', AcceptsLength g k' → k' ≤ k := by
  obtain ⟨ts, e, h⟩ := topsort_spec hg ha true hf
  have hlong : ∀ q, (∃ d, At g d q) → ∃ d, At g d q ∧ ∀ d', At g d' q → d' ≤ d := by
    rintro q ⟨d, hd⟩
    have hb : ∀ d', At g d' q → d' < g.states.length := fun d' h' => by
      by_contra hn; exact acyclic_short hg ha (by omega) q h'
    generalize g.states.length = N at hb
    clear e h hf
    induction N generalizing d with
    | zero => have := hb d hd; omega
    | succ N ih =>
      by_cases hN : At g N q
      · exact ⟨N, hN, fun d' h' => by have := hb d' h'; omega⟩
      · exact ih d hd fun d' h' => by
          have := hb d' h'
          have : d' ≠ N := fun e => hN (e ▸ h')
          omega
  have hlev : ∀ k q f, At g k q → g.final q = some f → ∃ k', k ≤ k' ∧ k' < ts.levels.length ∧
      anyFinal g ((ts.levels[k']?).getD []) = true := by
    intro k q f h1 h2
    obtain ⟨k', h3, h4⟩ := hlong q ⟨k, h1⟩
    refine ⟨k', h4 k h1, h.len k' q h3, (anyFinal_iff _ _).mpr ⟨q, (h.lev k' q).mpr ⟨h3, ?_⟩, f, h2⟩⟩
    intro _ e' he hat
    have := h4 e' hat
    omega
  unfold longestPathSize
  rw [e]
  dsimp only
  rcases longestBelow_spec g ts.levels ts.levels.length with ⟨h1, h2⟩ | ⟨k, h1, h2, h3, h4⟩
  · refine .inl ⟨by rw [h1], ?_⟩
    intro k hk
    obtain ⟨q, f, h3, h4⟩ := acceptsLength_iff.mp hk
    obtain ⟨k', _, h5, h6⟩ := hlev k q f h3 h4
    rw [h2 k' h5] at h6; cases h6
  · refine .inr ⟨k, by rw [h1], ?_, ?_⟩
    · obtain ⟨q, hq, f, hf⟩ := (anyFinal_iff _ _).mp h3
      exact acceptsLength_iff.mpr ⟨q, f, ((h.lev k q).mp hq).1, hf⟩
    · intro k0 hk
      obtain ⟨q, f, h5, h6⟩ := acceptsLength_iff.mp hk
      obtain ⟨k', h7, h8, h9⟩ := hlev k0 q f h5 h6
      by_contra hlt
      rw [h4 k' h8 (by omega)] at h9; cases h9

/-- For an acyclic transducer, the path sizes are exactly the numbers of transitions on paths from the start to a final state,
the largest first and each once. -/
theorem C29_sizes (g : Graph) (hg : WF g) (ha : Acyclic g) (fuel : Nat) (hf : g.states.length ≤ fuel) :
    ∃ r, pathSizes fuel g = .ok r ∧ r.Pairwise (· > ·) ∧ ∀ k, k ∈ r ↔ AcceptsLength g k := by
  obtain ⟨ts, e, h⟩ := topsort_spec hg ha false hf
  obtain ⟨h1, h2⟩ := sizesBelow_spec g ts.levels ts.levels.length
  refine ⟨_, by unfold pathSizes; rw [e], h1, fun k => ?_⟩
  rw [h2, anyFinal_iff, acceptsLength_iff]
  constructor
  · rintro ⟨_, q, hq, f, hf⟩
    exact ⟨q, f, ((h.lev k q).mp hq).1, hf⟩
  · rintro ⟨q, f, hq, hf⟩
    exact ⟨h.len k q hq, q, (h.lev k q).mpr ⟨hq, by simp⟩, f, hf⟩

/-- If a state that can be reached lies on a cycle, the sort never ends, and neither question is answered. -/
theorem C29_cyclic (g : Graph) (hg : WF g) (hc : ¬ Acyclic g) (fuel : Nat) :
    longestPathSize fuel g = .undefined ∧ pathSizes fuel g = .undefined := by
  have hall : ∀ d, ∃ q, At g d q := by
    unfold Acyclic at hc
    push Not at hc
    obtain ⟨s, l, w, ⟨l0, w0, h0⟩, h1, h2⟩ := hc
    have hloop : ∀ n : Nat, ∃ l' w', Path g s l' w' s ∧ n ≤ l'.length := by
      intro n
      induction n with
      | zero => exact ⟨[], 0, .nil s, by simp⟩
      | succ n ih =>
        obtain ⟨l', w', h3, h4⟩ := ih
        have : 0 < l.length := List.length_pos_iff.mpr h2
        exact ⟨_, _, h1.append h3, by simp; omega⟩
    intro d
    by_contra hno
    push Not at hno
    obtain ⟨l', w', h3, h4⟩ := hloop d
    exact at_mono hno (d' := (l0 ++ l').length) (by simp; omega) s ⟨_, _, h0.append h3, rfl⟩
  have key : ∀ ow, topsort fuel g ow = .undefined := by
    intro ow
    obtain ⟨ts, h, l, e⟩ := topsort_start hg ow fuel
    rw [e]
    exact topLoop_endless hg hall fuel 0 ts h l
  unfold longestPathSize pathSizes
  rw [key, key]
  exact ⟨rfl, rfl⟩

/-- Two ways from the start to the final state 2, of one and of two transitions. -/
def twoWays : Graph :=
  { states := [[⟨2, ['a'], ['a'], 0⟩, ⟨1, ['b'], ['b'], 0⟩], [⟨2, ['c'], ['c'], 0⟩], []], finals := [(2, 0)],
    alphabet := [epsilon, unknown, identity, ['a'], ['b'], ['c']] }

theorem twoWays_ok : WF twoWays ∧ Acyclic twoWays := by
  have hup : ∀ s, ∀ a ∈ twoWays.arcs s, s < a.target ∧ a.target < 3 := by
    intro s a ha
    match s, ha with
    | 0, ha => simp [twoWays, Graph.arcs] at ha; rcases ha with rfl | rfl <;> decide
    | 1, ha => simp [twoWays, Graph.arcs] at ha; subst ha; decide
    | 2, ha => simp [twoWays, Graph.arcs] at ha
    | n + 3, ha => simp [twoWays, Graph.arcs] at ha
  refine ⟨⟨by decide, fun s a ha => (hup s a ha).2, ?_⟩, ?_⟩
  · intro s w h
    match s, h with
    | 0, h => simp [twoWays, Graph.final, mapGet] at h
    | 1, h => simp [twoWays, Graph.final, mapGet] at h
    | 2, _ => decide
    | n + 3, h => simp [twoWays, Graph.final, mapGet] at h
  · intro s l w _ hp
    have : ∀ {s q : Nat} {l : List (Sym × Sym)} {w : Int}, Path twoWays s l w q → s + l.length ≤ q := by
      intro s q l w h
      induction h with
      | nil => simp
      | cons ha _ ih => have := (hup _ _ ha).1; simp; omega
    have := this hp
    exact List.length_eq_zero_iff.mp (by omega)

example : longestPathSize 3 twoWays = .ok 2 ∧ pathSizes 3 twoWays = .ok [2, 1] := by decide +kernel

example : ¬ Acyclic loopGraph := fun h => by
  have := h 1 _ _ ⟨_, _, Path.single (a := ⟨1, ['a'], ['b'], 2⟩) (by simp [loopGraph, Graph.arcs])⟩
    (Path.single (a := ⟨1, epsilon, ['c'], 1⟩) (by simp [loopGraph, Graph.arcs]))
  cases this

end Hfst.Basic
