import Verif.Lemmas.SfstVisit

/-!
# C65: the operations of the SFST back-end on one or two transducers
-/

namespace Hfst.Sfst

/-! ## Copying and exchanging the levels -/

theorem swap_swap (l : Label) : l.swap.swap = l := rfl

theorem map_swap_swap (w : List Label) : (w.map Label.swap).map Label.swap = w := by
  rw [List.map_map]
  exact List.map_id w

theorem swap_inj (l l' : Label) (h : l.swap = l'.swap) : l = l' := by
  rw [← swap_swap l, h, swap_swap]

/-- The change of labels made by `copy`. -/
def copyLabel (lswitch : Bool) (l : Label) : Label := if lswitch then l.swap else l

theorem copyLabel_self (sw : Bool) (l : Label) : copyLabel sw (copyLabel sw l) = l := by
  cases sw <;> rfl

theorem copyLabel_eps (sw : Bool) : copyLabel sw ⟨0, 0⟩ = ⟨0, 0⟩ := by
  cases sw <;> rfl

theorem copyLabel_inj (sw : Bool) (l l' : Label) (h : copyLabel sw l = copyLabel sw l') : l = l' := by
  rw [← copyLabel_self sw l, h, copyLabel_self]

theorem image_inj {f : Label → Label} (hinj : ∀ l l', f l = f l' → l = l') (hf : f ⟨0, 0⟩ = ⟨0, 0⟩)
    {v : List Label} (hv : ∀ l ∈ v, l ≠ ⟨0, 0⟩) : image f v = v.map f := by
  unfold image
  rw [List.filter_eq_self]
  intro l hl
  obtain ⟨l', hl', rfl⟩ := List.mem_map.1 hl
  simp only [ne_eq, decide_not, Bool.not_eq_true', decide_eq_false_iff_not]
  intro h
  exact hv l' hl' (hinj _ _ (h.trans hf.symm))

/-- What is accepted from the keys of a copy. -/
theorem copyLabel_takes (g : Graph) (sw : Bool) (n : Nat) (w : List Label) :
    KTakes (copySucc g (copyLabel sw)) (fun n => (g.node n).final) n w ↔
      g.Takes n (w.map (copyLabel sw)) := by
  have hid : ∀ v : List Label, (v.map (copyLabel sw)).map (copyLabel sw) = v := by
    intro v
    rw [List.map_map]
    have : copyLabel sw ∘ copyLabel sw = id := funext (copyLabel_self sw)
    rw [this, List.map_id]
  rw [copy_takes g _ (copyLabel_eps sw)]
  constructor
  · rintro ⟨v, hv, rfl⟩
    rw [image_inj (copyLabel_inj sw) (copyLabel_eps sw) hv.no_eps, hid]
    exact hv
  · intro h
    refine ⟨_, h, ?_⟩
    rw [image_inj (copyLabel_inj sw) (copyLabel_eps sw) h.no_eps, hid]

theorem kreach_of_reach {g : Graph} {f : Label → Label} {n m : Nat} (h : g.Reach n m) :
    KReach (copySucc g f) n m := by
  induction h with
  | refl => exact .refl
  | step hs _ ih => exact .step (mem_copySucc.2 ⟨_, hs, rfl⟩) ih

/-- The copy keeps its promises, and accepts what the original accepts (with exchanged levels if asked
for). -/
theorem copy_exact {F : Fst} (hF : F.Honest) (sw : Bool) :
    ∃ R, F.copy sw = some R ∧ R.Honest ∧ R.deterministic = F.deterministic ∧
      R.minimised = F.minimised ∧ ∀ w, R.Takes w ↔ F.Takes (w.map (copyLabel sw)) := by
  obtain ⟨b, hb, hB⟩ := copy_built hF.closed (copyLabel sw) true
  have htk : ∀ {k n}, b.map k = some n → ∀ w, b.graph.Takes n w ↔ F.graph.Takes k (w.map (copyLabel sw)) :=
    fun hk w => (hB.takes_at hk w).trans (copyLabel_takes ..)
  refine ⟨⟨b.graph, F.deterministic, F.minimised,
    if sw then (F.pairs.map Label.swap).foldl insertPair [] else copyPairs [] F.pairs⟩, ?_,
    ⟨hB.closed, ?_, ?_⟩, rfl, rfl, fun w => htk hB.root w⟩
  · unfold Fst.copy
    show Option.map _ (explore true (copySucc F.graph (copyLabel sw)) _ _ _ _ _) = _
    rw [hb]; rfl
  · intro hd
    exact copy_deterministic (copyLabel_inj sw) (copyLabel_eps sw) hB (hF.deterministic hd)
  · intro hm
    obtain ⟨h1, h2, h3⟩ := hF.minimised hm
    refine ⟨copy_deterministic (copyLabel_inj sw) (copyLabel_eps sw) hB h1, ?_, ?_⟩
    · intro n m hn hm hw
      obtain ⟨k, hk, hkr⟩ := hB.reach hn hB.root
      obtain ⟨k', hk', hkr'⟩ := hB.reach hm hB.root
      have : k = k' := by
        apply h2 k k' (kreach_copy hkr) (kreach_copy hkr')
        intro w
        have := hw (w.map (copyLabel sw))
        rw [htk hk, htk hk', List.map_map] at this
        have hid : copyLabel sw ∘ copyLabel sw = id := funext (copyLabel_self sw)
        rwa [hid, List.map_id] at this
      subst this
      rw [hk] at hk'
      exact Option.some.inj hk'
    · intro n l m hn hs
      obtain ⟨k, hk, hkr⟩ := hB.reach hn hB.root
      obtain ⟨k', hk', hm'⟩ := (hB.done k n hk).arc.1 hs
      obtain ⟨l', hl', _⟩ := mem_copySucc.1 hk'
      obtain ⟨w, hw⟩ := h3 k l' k' (kreach_copy hkr) hl'
      refine ⟨w.map (copyLabel sw), (htk hm' _).2 ?_⟩
      rw [List.map_map]
      have hid : copyLabel sw ∘ copyLabel sw = id := funext (copyLabel_self sw)
      rw [hid, List.map_id]
      exact hw

theorem lowers_swap (w : List Label) : lowers (w.map Label.swap) = uppers w := by
  unfold lowers uppers
  rw [List.map_map]
  rfl

theorem uppers_swap (w : List Label) : uppers (w.map Label.swap) = lowers w := by
  unfold lowers uppers
  rw [List.map_map]
  rfl

/-- **C65, copying and exchanging the levels** (`copy`, `invert`): the copy relates the same strings, the
exchanged one the same strings the other way round. -/
theorem C65_copy {F : Fst} (hF : F.Honest) :
    (∃ R, F.copy false = some R ∧ R.Honest ∧ ∀ w, R.Takes w ↔ F.Takes w) ∧
    (∃ R, F.copy true = some R ∧ R.Honest ∧ ∀ x y, R.Relates x y ↔ F.Relates y x) := by
  constructor
  · obtain ⟨R, h1, h2, _, _, h3⟩ := copy_exact hF false
    refine ⟨R, h1, h2, fun w => ?_⟩
    rw [h3]
    have : w.map (copyLabel false) = w := List.map_id w
    rw [this]
  · obtain ⟨R, h1, h2, _, _, h3⟩ := copy_exact hF true
    have hmap : ∀ w : List Label, w.map (copyLabel true) = w.map Label.swap := fun w => rfl
    refine ⟨R, h1, h2, fun x y => ⟨?_, ?_⟩⟩
    · rintro ⟨w, hw, rfl, rfl⟩
      exact ⟨w.map Label.swap, (h3 w).1 hw, lowers_swap w, uppers_swap w⟩
    · rintro ⟨w, hw, rfl, rfl⟩
      refine ⟨w.map Label.swap, (h3 _).2 ?_, lowers_swap w, uppers_swap w⟩
      rw [hmap, map_swap_swap]
      exact hw

/-! ## One level, other symbols -/

theorem filter_map_filter {α : Type} (p q : α → Bool) (f : α → α) (xs : List α)
    (h : ∀ x, p x = false → q (f x) = false) :
    ((xs.filter p).map f).filter q = (xs.map f).filter q := by
  induction xs with
  | nil => rfl
  | cons x xs ih =>
    cases hp : p x with
    | true =>
      rw [List.filter_cons, if_pos hp, List.map_cons, List.map_cons, List.filter_cons, List.filter_cons, ih]
    | false =>
      rw [List.filter_cons, if_neg (by simp [hp]), List.map_cons, List.filter_cons,
        if_neg (by simp [h x hp]), ih]

/-- The lower side of a sequence with changed labels. -/
theorem lowers_image (f : Label → Label) (v : List Label) :
    lowers (image f v) = ((v.map f).map (fun l => l.lower)).filter (fun c => c ≠ 0) := by
  unfold lowers image
  induction v.map f with
  | nil => rfl
  | cons l w ih =>
    by_cases hl : l = ⟨0, 0⟩
    · subst hl
      simpa using ih
    · by_cases h0 : l.lower = 0
      · simpa [hl, h0] using ih
      · simpa [hl, h0] using ih

theorem uppers_image (f : Label → Label) (v : List Label) :
    uppers (image f v) = ((v.map f).map (fun l => l.upper)).filter (fun c => c ≠ 0) := by
  unfold uppers image
  induction v.map f with
  | nil => rfl
  | cons l w ih =>
    by_cases hl : l = ⟨0, 0⟩
    · subst hl
      simpa using ih
    · by_cases h0 : l.upper = 0
      · simpa [hl, h0] using ih
      · simpa [hl, h0] using ih

/-- The label made by `level`. -/
def levelLabel (lv : Level) (l : Label) : Label := ⟨l.getChar lv, l.getChar lv⟩

/-- **C65, one level** (`extract_input_language`, `extract_output_language`): the result accepts exactly
the strings of that level, each symbol paired with itself. -/
theorem C65_level {F : Fst} (hF : F.graph.Closed) :
    (∃ R, F.level .lower = some R ∧ R.Honest ∧
      ∀ x y, R.Relates x y ↔ x = y ∧ ∃ z, F.Relates x z) ∧
    (∃ R, F.level .upper = some R ∧ R.Honest ∧
      ∀ x y, R.Relates x y ↔ x = y ∧ ∃ z, F.Relates z x) := by
  have key : ∀ lv, ∃ R, F.level lv = some R ∧ R.Honest ∧
      ∀ w, R.Takes w ↔ ∃ v, F.Takes v ∧ w = image (levelLabel lv) v := by
    intro lv
    obtain ⟨b, hb, hB⟩ := copy_built hF (levelLabel lv) false
    refine ⟨⟨b.graph, false, false,
      (F.pairs.map (fun l => (⟨l.getChar lv, l.getChar lv⟩ : Label))).foldl insertPair []⟩, ?_,
      ⟨hB.closed, (by intro h; cases h), (by intro h; cases h)⟩, fun w => ?_⟩
    · unfold Fst.level
      show Option.map _ (explore false (copySucc F.graph (levelLabel lv)) _ _ _ _ _) = _
      rw [hb]; rfl
    · exact (hB.takes w).trans (copy_takes F.graph _ (by cases lv <;> rfl) 0 w)
  constructor
  · obtain ⟨R, h1, h2, h3⟩ := key .lower
    refine ⟨R, h1, h2, fun x y => ⟨?_, ?_⟩⟩
    · rintro ⟨w, hw, rfl, rfl⟩
      obtain ⟨v, hv, rfl⟩ := (h3 w).1 hw
      rw [lowers_image, uppers_image, List.map_map, List.map_map]
      exact ⟨rfl, uppers v, v, hv, rfl, rfl⟩
    · rintro ⟨rfl, z, v, hv, rfl, rfl⟩
      refine ⟨image (levelLabel .lower) v, (h3 _).2 ⟨v, hv, rfl⟩, ?_, ?_⟩
      · rw [lowers_image, List.map_map]; rfl
      · rw [uppers_image, List.map_map]; rfl
  · obtain ⟨R, h1, h2, h3⟩ := key .upper
    refine ⟨R, h1, h2, fun x y => ⟨?_, ?_⟩⟩
    · rintro ⟨w, hw, rfl, rfl⟩
      obtain ⟨v, hv, rfl⟩ := (h3 w).1 hw
      rw [lowers_image, uppers_image, List.map_map, List.map_map]
      exact ⟨rfl, lowers v, v, hv, rfl, rfl⟩
    · rintro ⟨rfl, z, v, hv, rfl, rfl⟩
      refine ⟨image (levelLabel .upper) v, (h3 _).2 ⟨v, hv, rfl⟩, ?_, ?_⟩
      · rw [lowers_image, List.map_map]; rfl
      · rw [uppers_image, List.map_map]; rfl

/-- **C65, replacing a symbol** (`substitute(symbol, symbol)`): if the symbol replaced is not epsilon, the
result relates exactly the strings of the original with the symbol replaced. -/
theorem C65_replace_partial {F : Fst} (hF : F.graph.Closed) {c : Nat} (hc : c ≠ 0) (nc : Nat) :
    ∃ R, F.replaceChar c nc = some R ∧ R.Honest ∧
      ∀ x y, R.Relates x y ↔ ∃ x' y', F.Relates x' y' ∧ x = replaced c nc x' ∧ y = replaced c nc y' := by
  obtain ⟨b, hb, hB⟩ := copy_built hF (Label.replaceChar c nc) false
  have he : Label.replaceChar c nc ⟨0, 0⟩ = ⟨0, 0⟩ := by
    simp [Label.replaceChar, Ne.symm hc]
  have hlow : ∀ v, lowers (image (Label.replaceChar c nc) v) = replaced c nc (lowers v) := by
    intro v
    rw [lowers_image]
    unfold replaced lowers
    rw [filter_map_filter _ _ _ _ (fun x hx => by
      have : x = 0 := by simpa using hx
      subst this
      simp [Ne.symm hc]), List.map_map, List.map_map]
    rfl
  have hupp : ∀ v, uppers (image (Label.replaceChar c nc) v) = replaced c nc (uppers v) := by
    intro v
    rw [uppers_image]
    unfold replaced uppers
    rw [filter_map_filter _ _ _ _ (fun x hx => by
      have : x = 0 := by simpa using hx
      subst this
      simp [Ne.symm hc]), List.map_map, List.map_map]
    rfl
  have htk : ∀ w, b.graph.Takes 0 w ↔ ∃ v, F.Takes v ∧ w = image (Label.replaceChar c nc) v := fun w =>
    (hB.takes w).trans (copy_takes F.graph _ he 0 w)
  refine ⟨⟨b.graph, false, false, (F.pairs.map (Label.replaceChar c nc)).foldl insertPair []⟩, ?_,
    ⟨hB.closed, (by intro h; cases h), (by intro h; cases h)⟩, fun x y => ⟨?_, ?_⟩⟩
  · unfold Fst.replaceChar
    show Option.map _ (explore false (copySucc F.graph (Label.replaceChar c nc)) _ _ _ _ _) = _
    rw [hb]; rfl
  · rintro ⟨w, hw, rfl, rfl⟩
    obtain ⟨v, hv, rfl⟩ := (htk w).1 hw
    exact ⟨_, _, ⟨v, hv, rfl, rfl⟩, hlow v, hupp v⟩
  · rintro ⟨x', y', ⟨v, hv, rfl, rfl⟩, rfl, rfl⟩
    exact ⟨_, (htk _).2 ⟨v, hv, rfl⟩, hlow v, hupp v⟩

/-! ## Union and concatenation -/

/-- Graphs that agree on nodes closed under arcs accept the same from there. -/
theorem takes_congr {g g' : Graph} (S : Nat → Prop) (hc : ∀ n, S n → ∀ a ∈ (g.node n).arcs, S a.2)
    (hs : ∀ n, S n → g'.node n = g.node n) {n : Nat} (hn : S n) (w : List Label) :
    g'.Takes n w ↔ g.Takes n w := by
  constructor
  · intro h
    unfold Graph.Takes at h
    induction h with
    | stop hf => exact .stop ((hs _ hn) ▸ hf)
    | skip h _ ih =>
      unfold Graph.Step at h
      rw [hs _ hn] at h
      exact .skip h (ih (hc _ hn _ h))
    | read hl h _ ih =>
      unfold Graph.Step at h
      rw [hs _ hn] at h
      exact .read hl h (ih (hc _ hn _ h))
  · intro h
    unfold Graph.Takes at h
    induction h with
    | stop hf => exact .stop ((hs _ hn) ▸ hf)
    | @skip k k' w h _ ih =>
      refine .skip (k' := k') ?_ (ih (hc _ hn _ h))
      unfold Graph.Step
      rw [hs _ hn]
      exact h
    | @read k k' l w hl h _ ih =>
      refine .read (k' := k') hl ?_ (ih (hc _ hn _ h))
      unfold Graph.Step
      rw [hs _ hn]
      exact h

/-- Copies of two transducers in a new one, the first of them linked to the root. -/
theorem two_copies {F G : Graph} (hF : F.Closed) (hG : G.Closed) :
    ∃ (n1 : Nat) (a1 : Graph) (n2 : Nat) (a2 : Graph), copyNodes F id 0 Graph.fresh = some (n1, a1) ∧
      copyNodes G id 0 (a1.addArc 0 Label.eps n1) = some (n2, a2) ∧
      0 < n1 ∧ n1 < n2 ∧ n2 < a2.size ∧
      a2.node 0 = ⟨[(Label.eps, n1)], false⟩ ∧
      (∀ j, 0 < j → j < n2 → ∀ a ∈ (a2.node j).arcs, 0 < a.2 ∧ a.2 < n2) ∧
      (∀ j, n2 ≤ j → j < a2.size → ∀ a ∈ (a2.node j).arcs, n2 ≤ a.2 ∧ a.2 < a2.size) ∧
      (∀ w, a2.Takes n1 w ↔ F.Takes 0 w) ∧ (∀ w, a2.Takes n2 w ↔ G.Takes 0 w) := by
  obtain ⟨b1, h1, B1⟩ := copyNodes_built hF id Graph.fresh
  obtain ⟨b2, h2, B2⟩ := copyNodes_built hG id (b1.graph.addArc 0 Label.eps 1)
  have hs1 : 2 ≤ b1.graph.size := B1.grows
  have hs2 : b1.graph.size + 1 ≤ b2.graph.size := B2.grows
  have hn : ∀ j, 0 < j → j < b1.graph.size → b2.graph.node j = b1.graph.node j := by
    intro j hj hj'
    rw [B2.others j (Nat.lt_succ_of_lt hj') (Nat.ne_of_lt hj'), node_newNode,
      if_neg (show j ≠ (b1.graph.addArc 0 Label.eps 1).size from Nat.ne_of_lt hj'), node_addArc, if_neg (Nat.ne_of_gt hj)]
  have hb1 : ∀ j, 0 < j → j < b1.graph.size → ∀ a ∈ (b1.graph.node j).arcs, 0 < a.2 ∧ a.2 < b1.graph.size := by
    intro j hj hj' a ha
    obtain ⟨h3, h4⟩ := B1.arcs (j := j) (by
      by_cases h : j = 1
      · exact Or.inl h
      · right; show 2 ≤ j; omega) hj' ha
    refine ⟨?_, h3⟩
    rcases h4 with h4 | h4
    · rw [h4]; exact Nat.zero_lt_one
    · exact Nat.lt_of_lt_of_le (by decide) h4
  refine ⟨1, b1.graph, b1.graph.size, b2.graph, h1, h2, Nat.zero_lt_one, hs1, hs2, ?_, ?_, ?_, ?_, ?_⟩
  · rw [B2.others 0 (Nat.succ_pos _) (by show 0 ≠ b1.graph.size; omega), node_newNode,
      if_neg (show 0 ≠ (b1.graph.addArc 0 Label.eps 1).size by show 0 ≠ b1.graph.size; omega),
      node_addArc, if_pos rfl, B1.others 0 (Nat.succ_pos _) (by decide)]
    rfl
  · intro j hj hj' a ha
    rw [hn j hj hj'] at ha
    exact hb1 j hj hj' a ha
  · intro j hj hj' a ha
    obtain ⟨h3, h4⟩ := B2.arcs (j := j) (by
      show j = b1.graph.size ∨ b1.graph.size + 1 ≤ j
      omega) hj' ha
    refine ⟨?_, h3⟩
    have h5 : a.2 = b1.graph.size ∨ b1.graph.size + 1 ≤ a.2 := h4
    omega
  · intro w
    rw [takes_congr (g := b1.graph) (fun j => 0 < j ∧ j < b1.graph.size)
      (fun j hj a ha => hb1 j hj.1 hj.2 a ha) (fun j hj => hn j hj.1 hj.2) ⟨Nat.zero_lt_one, hs1⟩]
    exact (B1.takes w).trans (copy_takes_id ..)
  · exact fun w => (B2.takes w).trans (copy_takes_id ..)

/-- **C65, union** (`disjunct`): the result accepts exactly what one of the two accepts. -/
theorem C65_union {F G : Fst} (hF : F.graph.Closed) (hG : G.graph.Closed) :
    ∃ R, F.union G = some R ∧ R.Honest ∧ ∀ w, R.Takes w ↔ F.Takes w ∨ G.Takes w := by
  obtain ⟨n1, a1, n2, a2, h1, h2, hn1, hn12, hn2, hroot, hS1, hS2, ht1, ht2⟩ := two_copies hF hG
  have hnode : ∀ j, 0 < j → (a2.addArc 0 Label.eps n2).node j = a2.node j := fun j hj => by
    rw [node_addArc, if_neg (Nat.ne_of_gt hj)]
  have h0 : (a2.addArc 0 Label.eps n2).node 0 = ⟨[(Label.eps, n2), (Label.eps, n1)], false⟩ := by
    rw [node_addArc, if_pos rfl, hroot]
  have hT1 : ∀ w, (a2.addArc 0 Label.eps n2).Takes n1 w ↔ F.Takes w := fun w =>
    (takes_congr (g := a2) (fun j => 0 < j ∧ j < n2) (fun j hj a ha => hS1 j hj.1 hj.2 a ha)
      (fun j hj => hnode j hj.1) ⟨hn1, hn12⟩ w).trans (ht1 w)
  have hT2 : ∀ w, (a2.addArc 0 Label.eps n2).Takes n2 w ↔ G.Takes w := fun w =>
    (takes_congr (g := a2) (fun j => n2 ≤ j ∧ j < a2.size) (fun j hj a ha => hS2 j hj.1 hj.2 a ha)
      (fun j hj => hnode j (by omega)) ⟨Nat.le_refl _, hn2⟩ w).trans (ht2 w)
  refine ⟨⟨a2.addArc 0 Label.eps n2, false, false, copyPairs (copyPairs [] F.pairs) G.pairs⟩, ?_,
    ⟨⟨?_, ?_⟩, (by intro h; cases h), (by intro h; cases h)⟩, ?_⟩
  · unfold Fst.union
    rw [h1]
    dsimp only [Option.bind]
    rw [h2]
  · show 0 < a2.size
    omega
  · intro n hn a ha
    show a.2 < a2.size
    by_cases hn0 : n = 0
    · subst hn0
      have ha' : a ∈ ((a2.addArc 0 Label.eps n2).node 0).arcs := ha
      rw [h0] at ha'
      simp only [List.mem_cons, List.not_mem_nil, or_false] at ha'
      rcases ha' with rfl | rfl
      · exact hn2
      · exact Nat.lt_trans hn12 hn2
    · have ha' : a ∈ ((a2.addArc 0 Label.eps n2).node n).arcs := ha
      rw [hnode n (Nat.pos_of_ne_zero hn0)] at ha'
      by_cases hlt : n < n2
      · exact Nat.lt_trans (hS1 n (Nat.pos_of_ne_zero hn0) hlt a ha').2 hn2
      · exact (hS2 n (Nat.not_lt.1 hlt) hn a ha').2
  · intro w
    rw [← hT1 w, ← hT2 w]
    show (a2.addArc 0 Label.eps n2).Takes 0 w ↔ _
    constructor
    · intro h
      have hstep : ∀ l m, (a2.addArc 0 Label.eps n2).Step 0 l m → l = ⟨0, 0⟩ ∧ (m = n2 ∨ m = n1) := by
        intro l m hs
        unfold Graph.Step at hs
        rw [h0] at hs
        simp only [List.mem_cons, List.not_mem_nil, or_false, Prod.mk.injEq] at hs
        rcases hs with ⟨rfl, rfl⟩ | ⟨rfl, rfl⟩
        · exact ⟨rfl, Or.inl rfl⟩
        · exact ⟨rfl, Or.inr rfl⟩
      cases h with
      | stop hf => rw [h0] at hf; cases hf
      | skip hs h =>
        rcases (hstep _ _ hs).2 with rfl | rfl
        · exact Or.inr h
        · exact Or.inl h
      | read hl hs _ => exact absurd (hstep _ _ hs).1 hl
    · rintro (h | h)
      · refine .skip (k' := n1) ?_ h
        unfold Graph.Step
        rw [h0]
        simp [Label.eps]
      · refine .skip (k' := n2) ?_ h
        unfold Graph.Step
        rw [h0]
        simp [Label.eps]

/-- Linking the final nodes to `n2`: what the traversal leaves. -/
theorem recCat_shape {g : Graph} (hg : g.Closed) {r : Nat} (hr : r < g.size) (n2 : Nat) :
    ∃ (V : Nat → Prop) (g' : Graph), recCat g r n2 = some g' ∧ g'.size = g.size ∧
      (∀ j, V j ↔ g.Reach r j) ∧
      (∀ j, V j → g'.node j = catNode n2 (g.node j)) ∧ (∀ j, ¬ V j → g'.node j = g.node j) := by
  obtain ⟨V, g', h, hs, hV, h1, h2⟩ := visit_all (g := g) (pre := fun _ nd => nd)
    (post := fun _ => catNode n2) hg.2 hr
  refine ⟨fun j => j ∈ V, g', by unfold recCat; rw [h]; rfl, hs, fun j => ?_, h1, h2⟩
  refine (hV j).trans ?_
  clear h1 h2 hV hs
  constructor
  · intro hr'
    clear hr h hg
    induction hr' with
    | refl => exact .refl
    | @step n p a ha _ ih => exact .step (l := a.1) ha ih
  · intro hr'
    clear hr h hg
    induction hr' with
    | refl => exact .refl
    | @step n m p l hs _ ih => exact .step (a := (l, m)) hs ih

theorem catNode_final (n2 : Nat) (nd : Node) : (catNode n2 nd).final = false := by
  unfold catNode
  cases h : nd.final <;> simp [h]

theorem mem_catNode {n2 : Nat} {nd : Node} {a : Label × Nat} :
    a ∈ (catNode n2 nd).arcs ↔ a ∈ nd.arcs ∨ (nd.final = true ∧ a = (⟨0, 0⟩, n2)) := by
  unfold catNode
  cases h : nd.final
  · simp
  · simp [Label.eps, or_comm]

theorem Graph.Reach.trans_step {g : Graph} {n m p : Nat} {l : Label} (h : g.Reach n m) (hs : g.Step m l p) :
    g.Reach n p := by
  induction h with
  | refl => exact .step hs .refl
  | step h _ ih => exact .step h (ih hs)

/-- What is accepted after the final nodes were linked to `n2`. -/
theorem cat_takes {g g' : Graph} {V : Nat → Prop} {n2 : Nat}
    (hV : ∀ j, V j → ∀ a ∈ (g.node j).arcs, V a.2)
    (h1 : ∀ j, V j → g'.node j = catNode n2 (g.node j)) {j : Nat} (hj : V j) (w : List Label) :
    g'.Takes j w ↔ ∃ u v, w = u ++ v ∧ g.Takes j u ∧ g'.Takes n2 v := by
  constructor
  · intro h
    unfold Graph.Takes at h
    induction h with
    | stop hf => rw [h1 _ hj, catNode_final] at hf; cases hf
    | skip hs hrest ih =>
      unfold Graph.Step at hs
      rw [h1 _ hj, mem_catNode] at hs
      rcases hs with hs | ⟨hf, he⟩
      · obtain ⟨u, v, rfl, hu, hv⟩ := ih (hV _ hj _ hs)
        exact ⟨u, v, rfl, .skip hs hu, hv⟩
      · cases he
        exact ⟨[], _, rfl, .stop hf, hrest⟩
    | read hl hs hrest ih =>
      unfold Graph.Step at hs
      rw [h1 _ hj, mem_catNode] at hs
      rcases hs with hs | ⟨hf, he⟩
      · obtain ⟨u, v, rfl, hu, hv⟩ := ih (hV _ hj _ hs)
        exact ⟨_ :: u, v, rfl, .read hl hs hu, hv⟩
      · cases he
        exact absurd rfl hl
  · rintro ⟨u, v, rfl, hu, hv⟩
    unfold Graph.Takes at hu
    induction hu with
    | @stop k hf =>
      refine .skip (k' := n2) ?_ hv
      unfold Graph.Step
      rw [h1 _ hj, mem_catNode]
      exact Or.inr ⟨hf, rfl⟩
    | @skip k k' w hs _ ih =>
      refine .skip (k' := k') ?_ (ih (hV _ hj _ hs))
      unfold Graph.Step
      rw [h1 _ hj, mem_catNode]
      exact Or.inl hs
    | @read k k' l w hl hs _ ih =>
      refine .read (k' := k') hl ?_ (ih (hV _ hj _ hs))
      unfold Graph.Step
      rw [h1 _ hj, mem_catNode]
      exact Or.inl hs

/-- Concatenation, and what is needed of the result for repetition: no arc leads back to the root. -/
theorem concat_exact {F G : Fst} (hF : F.graph.Closed) (hG : G.graph.Closed) :
    ∃ R, F.concat G = some R ∧ R.Honest ∧
      (∀ w, R.Takes w ↔ ∃ u v, w = u ++ v ∧ F.Takes u ∧ G.Takes v) ∧
      (∀ j, j < R.graph.size → ∀ a ∈ (R.graph.node j).arcs, a.2 ≠ 0) := by
  obtain ⟨n1, a1, n2, a2, h1, h2, hn1, hn12, hn2, hroot, hS1, hS2, ht1, ht2⟩ := two_copies hF hG
  have harcs : ∀ n, n < a2.size → ∀ a ∈ (a2.node n).arcs, a.2 < a2.size ∧ a.2 ≠ 0 := by
    intro n hn a ha
    by_cases hn0 : n = 0
    · subst hn0
      rw [hroot] at ha
      simp only [List.mem_cons, List.not_mem_nil, or_false] at ha
      subst ha
      exact ⟨Nat.lt_trans hn12 hn2, Nat.ne_of_gt hn1⟩
    · by_cases hlt : n < n2
      · have := hS1 n (Nat.pos_of_ne_zero hn0) hlt a ha
        omega
      · have := hS2 n (Nat.not_lt.1 hlt) hn a ha
        omega
  have hcl : a2.Closed := ⟨by omega, fun n hn a ha => (harcs n hn a ha).1⟩
  obtain ⟨V, a3, h3, hs3, hV, hin, hout⟩ := recCat_shape hcl (r := 0) hcl.1 n2
  have hVlt : ∀ j, V j → j < n2 := by
    intro j hj
    have : ∀ n m, a2.Reach n m → n < n2 → m < n2 := by
      intro n m h
      induction h with
      | refl => exact id
      | @step n m p l hs _ ih =>
        intro hn
        apply ih
        by_cases hn0 : n = 0
        · subst hn0
          unfold Graph.Step at hs
          rw [hroot] at hs
          simp only [List.mem_cons, List.not_mem_nil, or_false, Prod.mk.injEq] at hs
          omega
        · exact (hS1 n (Nat.pos_of_ne_zero hn0) hn _ hs).2
    exact this 0 j ((hV j).1 hj) (by omega)
  have hVc : ∀ j, V j → ∀ a ∈ (a2.node j).arcs, V a.2 := fun j hj a ha =>
    (hV _).2 (((hV j).1 hj).trans_step (l := a.1) ha)
  have hT2 : ∀ w, a3.Takes n2 w ↔ G.Takes w := fun w =>
    (takes_congr (g := a2) (fun j => n2 ≤ j ∧ j < a2.size) (fun j hj a ha => hS2 j hj.1 hj.2 a ha)
      (fun j hj => hout j (fun h => absurd (hVlt j h) (Nat.not_lt.2 hj.1))) ⟨Nat.le_refl _, hn2⟩ w).trans
      (ht2 w)
  have harcs3 : ∀ n, n < a2.size → ∀ a ∈ (a3.node n).arcs, a.2 < a2.size ∧ a.2 ≠ 0 := by
    intro n hn a ha
    by_cases hv : V n
    · rw [hin n hv, mem_catNode] at ha
      rcases ha with ha | ⟨_, rfl⟩
      · exact harcs n hn a ha
      · exact ⟨hn2, by show n2 ≠ 0; omega⟩
    · rw [hout n hv] at ha
      exact harcs n hn a ha
  have h0 : ∀ w, a2.Takes 0 w ↔ F.Takes w := by
    intro w
    constructor
    · intro h
      have hstep : ∀ l m, a2.Step 0 l m → l = ⟨0, 0⟩ ∧ m = n1 := by
        intro l m hs
        unfold Graph.Step at hs
        rw [hroot] at hs
        simp only [List.mem_cons, List.not_mem_nil, or_false, Prod.mk.injEq] at hs
        exact hs
      cases h with
      | stop hf => rw [hroot] at hf; cases hf
      | skip hs h =>
        obtain ⟨_, rfl⟩ := hstep _ _ hs
        exact (ht1 w).1 h
      | read hl hs _ => exact absurd (hstep _ _ hs).1 hl
    · intro h
      refine .skip (k' := n1) ?_ ((ht1 w).2 h)
      unfold Graph.Step
      rw [hroot]
      simp [Label.eps]
  refine ⟨⟨a3, false, false, copyPairs (copyPairs [] F.pairs) G.pairs⟩, ?_,
    ⟨⟨?_, ?_⟩, (by intro h; cases h), (by intro h; cases h)⟩, ?_, ?_⟩
  · unfold Fst.concat
    rw [h1]
    dsimp only [Option.bind]
    rw [h2]
    dsimp only
    rw [h3]
  · show 0 < a3.size
    omega
  · intro n hn a ha
    show a.2 < a3.size
    rw [hs3]
    exact (harcs3 n (hs3 ▸ hn) a ha).1
  · intro w
    show a3.Takes 0 w ↔ _
    rw [cat_takes hVc hin ((hV 0).2 .refl)]
    constructor
    · rintro ⟨u, v, h, hu, hv⟩
      exact ⟨u, v, h, (h0 u).1 hu, (hT2 v).1 hv⟩
    · rintro ⟨u, v, h, hu, hv⟩
      exact ⟨u, v, h, (h0 u).2 hu, (hT2 v).2 hv⟩
  · intro n hn a ha
    exact (harcs3 n (hs3 ▸ hn) a ha).2

/-- **C65, concatenation** (`concatenate`): the result accepts exactly the sequences that are one of the
first followed by one of the second. -/
theorem C65_concat {F G : Fst} (hF : F.graph.Closed) (hG : G.graph.Closed) :
    ∃ R, F.concat G = some R ∧ R.Honest ∧
      ∀ w, R.Takes w ↔ ∃ u v, w = u ++ v ∧ F.Takes u ∧ G.Takes v := by
  obtain ⟨R, h1, h2, h3, _⟩ := concat_exact hF hG
  exact ⟨R, h1, h2, h3⟩

end Hfst.Sfst
