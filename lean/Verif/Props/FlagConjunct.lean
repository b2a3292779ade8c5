import Verif.Props.FlagHarmonize

/-!
# C92: Conjunction and subtraction of transducers with flags
-/
namespace Hfst.FlagHarm
open Hfst.Basic Hfst.Trans Hfst.Basic.Graph

/-! ## Putting two sequences together -/

theorem split_first : ∀ {r : List (Sym × Sym)} {x : Sym × Sym} {q : List (Sym × Sym)}, withoutFlags r = x :: q →
    ∃ t r', r = t ++ x :: r' ∧ (∀ p ∈ t, Flags.isDiacritic p.1 = true) ∧ withoutFlags r' = q
  | [], x, q, h => by cases h
  | y :: r, x, q, h => by
    unfold withoutFlags at h
    rw [List.filter_cons] at h
    cases hd : Flags.isDiacritic y.1 with
    | true =>
      rw [hd] at h
      obtain ⟨t, r', rfl, ht, hr⟩ := split_first (r := r) (x := x) (q := q) h
      refine ⟨y :: t, r', rfl, fun p hp => ?_, hr⟩
      rcases List.mem_cons.1 hp with rfl | hp
      · exact hd
      · exact ht p hp
    | false =>
      rw [hd] at h
      simp only [Bool.not_false, if_true, List.cons.injEq] at h
      obtain ⟨rfl, h⟩ := h
      exact ⟨[], r, rfl, by simp, h⟩

theorem ordered_seconds {l : List (Sym × Sym)} : ∀ {t : List (Sym × Sym)} {seen : Prop},
    (∀ p ∈ t, FlagOf "_2".toList p.1) → (∀ seen, OrderedFrom seen l) → OrderedFrom seen (t ++ l)
  | [], seen, _, h => h seen
  | p :: t, seen, ht, h =>
    ⟨fun _ h1 => flagOf_apart h1 (ht p (List.mem_cons_self ..)),
      ordered_seconds (t := t) (fun q hq => ht q (List.mem_cons_of_mem _ hq)) h⟩

theorem ordinary_not_flagOf {x suf : Sym} (h : Flags.isDiacritic x = false) : ¬ FlagOf suf x := fun hf => by
  rw [hf.isDiacritic] at h; cases h

/-- The flags of the first sequence are put before those of the second between ordinary symbols. -/
theorem exists_merge {A B : Sym × Sym → Bool} (hA : ∀ p, A p = true → FlagOf "_1".toList p.1)
    (hB : ∀ p, B p = true → FlagOf "_2".toList p.1) : ∀ (r1 r2 : List (Sym × Sym)),
    withoutFlags r1 = withoutFlags r2 → (∀ p ∈ r1, Flags.isDiacritic p.1 = true → A p = true) →
    (∀ p ∈ r2, Flags.isDiacritic p.1 = true → B p = true) →
    ∃ l, l.filter (fun p => !B p) = r1 ∧ l.filter (fun p => !A p) = r2 ∧ OrderedFrom False l ∧
      ∀ p ∈ l, p ∈ r1 ∨ p ∈ r2 := by
  have notA : ∀ p, (Flags.isDiacritic p.1 = true → B p = true) → A p = false := by
    intro p h
    cases ha : A p with
    | false => rfl
    | true => exact (flagOf_apart (hA p ha) (hB p (h (hA p ha).isDiacritic))).elim
  have notB : ∀ p, (Flags.isDiacritic p.1 = true → A p = true) → B p = false := by
    intro p h
    cases hb : B p with
    | false => rfl
    | true => exact (flagOf_apart (hA p (h (hB p hb).isDiacritic)) (hB p hb)).elim
  intro r1
  induction r1 with
  | nil =>
    intro r2 h _ h2
    have hf : ∀ p ∈ r2, Flags.isDiacritic p.1 = true := by
      intro p hp
      have := List.filter_eq_nil_iff.1 (show r2.filter (fun p => !Flags.isDiacritic p.1) = [] from h.symm) p hp
      simpa using this
    refine ⟨r2, ?_, ?_, ?_, fun p hp => Or.inr hp⟩
    · rw [List.filter_eq_nil_iff]
      intro p hp
      simp [h2 p hp (hf p hp)]
    · rw [List.filter_eq_self]
      intro p hp
      simp [notA p (h2 p hp)]
    · have := ordered_seconds (l := []) (t := r2) (seen := False) (fun p hp => hB p (h2 p hp (hf p hp))) (fun _ => trivial)
      simpa using this
  | cons x r1 ih =>
    intro r2 h h1 h2
    have h1' : ∀ p ∈ r1, Flags.isDiacritic p.1 = true → A p = true := fun p hp => h1 p (List.mem_cons_of_mem _ hp)
    have hxB := notB x (h1 x (List.mem_cons_self ..))
    cases hx : Flags.isDiacritic x.1 with
    | true =>
      have hxA := h1 x (List.mem_cons_self ..) hx
      have hw : withoutFlags r1 = withoutFlags r2 := by
        rw [← h]; unfold withoutFlags; rw [List.filter_cons, hx]; rfl
      obtain ⟨l, e1, e2, ho, hm⟩ := ih r2 hw h1' h2
      refine ⟨x :: l, ?_, ?_, ⟨False.elim, ?_⟩, ?_⟩
      · rw [List.filter_cons, hxB, e1]; rfl
      · rw [List.filter_cons, hxA, e2]; rfl
      · have : (Flags.isDiacritic x.1 = true ∧ (False ∨ FlagOf "_2".toList x.1)) = False := by
          apply eq_false
          rintro ⟨_, h | h⟩
          · exact h
          · exact flagOf_apart (hA x hxA) h
        rw [this]; exact ho
      · intro p hp
        rcases List.mem_cons.1 hp with rfl | hp
        · exact Or.inl (List.mem_cons_self ..)
        · rcases hm p hp with h | h
          · exact Or.inl (List.mem_cons_of_mem _ h)
          · exact Or.inr h
    | false =>
      have hw : withoutFlags r2 = x :: withoutFlags r1 := by
        rw [← h]; unfold withoutFlags; rw [List.filter_cons, hx]; rfl
      obtain ⟨t, r', rfl, ht, hr⟩ := split_first hw
      have h2t : ∀ p ∈ t, B p = true := fun p hp => h2 p (List.mem_append_left _ hp) (ht p hp)
      have hxA : A x = false := notA x (fun hd => by rw [hx] at hd; cases hd)
      obtain ⟨l, e1, e2, ho, hm⟩ := ih r' hr.symm h1'
        (fun p hp => h2 p (List.mem_append_right _ (List.mem_cons_of_mem _ hp)))
      refine ⟨t ++ x :: l, ?_, ?_, ?_, ?_⟩
      · rw [List.filter_append, List.filter_eq_nil_iff.2 (fun p hp => by simp [h2t p hp]), List.filter_cons, hxB, e1]; rfl
      · rw [List.filter_append, List.filter_eq_self.2 (fun p hp => by
          simp [notA p (h2 p (List.mem_append_left _ hp))]), List.filter_cons, hxA, e2]; rfl
      · refine ordered_seconds (fun p hp => hB p (h2t p hp)) (fun seen => ⟨fun _ => ordinary_not_flagOf hx, ?_⟩)
        have : (Flags.isDiacritic x.1 = true ∧ (seen ∨ FlagOf "_2".toList x.1)) = False := by
          apply eq_false
          rintro ⟨h, _⟩
          rw [hx] at h; cases h
        rw [this]; exact ho
      · intro p hp
        rcases List.mem_append.1 hp with hp | hp
        · exact Or.inr (List.mem_append_left _ hp)
        · rcases List.mem_cons.1 hp with rfl | hp
          · exact Or.inl (List.mem_cons_self ..)
          · rcases hm p hp with h | h
            · exact Or.inl (List.mem_cons_of_mem _ h)
            · exact Or.inr (List.mem_append_right _ (List.mem_cons_of_mem _ h))

/-! ## Conjunction -/

theorem twoSided_rename {suf : Sym} (hs : '.' ∉ suf) {g : Graph} (hg : TwoSided g) : TwoSided (rename suf g) := by
  intro s a ha hd
  rw [arcs_rename] at ha
  obtain ⟨b, hb, rfl⟩ := List.mem_map.1 ha
  simp only [renameArc, isDiacritic_renameSym hs] at hd ⊢
  rw [hg s b hb hd]

theorem valued_rename {suf : Sym} (hs : '.' ∉ suf) {g : Graph} (hg : Valued g) : Valued (rename suf g) := by
  intro s a ha hd
  rw [arcs_rename] at ha
  obtain ⟨b, hb, rfl⟩ := List.mem_map.1 ha
  simp only [renameArc] at hd ⊢
  rw [isDiacritic_renameSym hs] at hd
  rw [hasValue_rename hs hd]
  exact hg s b hb hd

theorem conj_core {removeIllegal : Graph → Graph} (hri : RemovesIllegal removeIllegal) {G H : Graph}
    (uG : Usual G) (uH : Usual H) (tG : TwoSided G) (tH : TwoSided H) (vG : Valued G) (vH : Valued H)
    (fG : ∀ x ∈ G.alphabet, Flags.isDiacritic x = true → FlagOf "_1".toList x)
    (fH : ∀ x ∈ H.alphabet, Flags.isDiacritic x = true → FlagOf "_2".toList x) (p : List (Sym × Sym)) (w1 w2 : Int) :
    (∃ l, Means (removeIllegal (insertMissing G H)) l w1 ∧ Means (insertMissing H (insertMissing G H)) l w2 ∧
      Obeys (l.map Prod.fst) ∧ withoutFlags l = p) ↔ MeansObeying G p w1 ∧ MeansObeying H p w2 := by
  have hG := uG.good.wf
  have hH := uH.good.wf
  have aG := uG.good.alpha
  have aH := uH.good.alpha
  have m2 : ∀ x ∈ missingFlags G H, FlagOf "_2".toList x := fun x hx => by
    obtain ⟨h1, h2, _⟩ := mem_missingFlags.1 hx
    exact fH x h1 h2
  have m1 : ∀ x ∈ missingFlags H (insertMissing G H), FlagOf "_1".toList x := fun x hx => by
    obtain ⟨h1, h2, h3⟩ := mem_missingFlags.1 hx
    rcases (alphabet_insertMissing hG.nonempty x).1 h1 with h | h
    · exact fG x h h2
    · exact absurd (mem_missingFlags.1 h).1 h3
  have gm : ∀ x ∈ G.alphabet, Flags.isDiacritic x = true → x ∈ missingFlags H (insertMissing G H) := fun x hx hd =>
    mem_missingFlags.2 ⟨(alphabet_insertMissing hG.nonempty x).2 (Or.inl hx), hd,
      fun hh => flagOf_apart (fG x hx hd) (fH x hh hd)⟩
  have hm : ∀ x ∈ H.alphabet, Flags.isDiacritic x = true → x ∈ missingFlags G H := fun x hx hd =>
    mem_missingFlags.2 ⟨hx, hd, fun hg => flagOf_apart (fG x hg hd) (fH x hx hd)⟩
  generalize hM2 : missingFlags G H = M2 at *
  generalize hM1 : missingFlags H (insertMissing G H) = M1 at *
  have hA : ∀ p, isPairOf M1 p = true → FlagOf "_1".toList p.1 := fun p hp => m1 _ (of_decide_eq_true hp).2
  have hB : ∀ p, isPairOf M2 p = true → FlagOf "_2".toList p.1 := fun p hp => m2 _ (of_decide_eq_true hp).2
  have onG : ∀ {l v}, Means G l v → ∀ q ∈ l, Flags.isDiacritic q.1 = true → isPairOf M1 q = true := by
    intro l v ha q hq hd
    obtain ⟨s, a, haa, hst⟩ := mem_means ha q hq
    obtain ⟨rfl, hd⟩ := twoSided_pair tG haa hst (Or.inl hd)
    exact decide_eq_true ⟨rfl, gm _ (aG.arcs s a haa).1 hd⟩
  have onH : ∀ {l v}, Means H l v → ∀ q ∈ l, Flags.isDiacritic q.1 = true → isPairOf M2 q = true := by
    intro l v ha q hq hd
    obtain ⟨s, a, haa, hst⟩ := mem_means ha q hq
    obtain ⟨rfl, hd⟩ := twoSided_pair tH haa hst (Or.inl hd)
    exact decide_eq_true ⟨rfl, hm _ (aH.arcs s a haa).1 hd⟩
  have accG : ∀ l v, Means (insertMissing G H) l v ↔ Means G (l.filter fun p => !isPairOf M2 p) v := fun l v => by
    rw [means_insertMissing hG aG, hM2]
  have accH : ∀ l v, Means (insertMissing H (insertMissing G H)) l v ↔
      Means H (l.filter fun p => !isPairOf M1 p) v := fun l v => by
    rw [means_insertMissing hH aH, hM1]
  have uI : Usual (insertMissing G H) := usual_insertMissing uG
  constructor
  · rintro ⟨l, a1, a2, ho, rfl⟩
    have a1 := (accG l w1).1 (hri.sub _ _ _ uI a1)
    have a2 := (accH l w2).1 a2
    have tri : ∀ q ∈ l, isPairOf M1 q = true ∨ isPairOf M2 q = true ∨ Flags.isDiacritic q.1 = false := by
      intro q hq
      cases hd : Flags.isDiacritic q.1 with
      | false => exact Or.inr (Or.inr rfl)
      | true =>
        cases hb : isPairOf M2 q with
        | true => exact Or.inr (Or.inl rfl)
        | false => exact Or.inl (onG a1 q (List.mem_filter.2 ⟨hq, by rw [hb]; rfl⟩) hd)
    obtain ⟨o1, o2⟩ := (obeys_apart hA hB tri).1 ho
    exact ⟨⟨_, a1, o1, withoutFlags_filter (fun q hq => (hB q hq).isDiacritic) l⟩,
      ⟨_, a2, o2, withoutFlags_filter (fun q hq => (hA q hq).isDiacritic) l⟩⟩
  · rintro ⟨⟨r1, a1, o1, e1⟩, ⟨r2, a2, o2, e2⟩⟩
    obtain ⟨l, l1, l2, hord, hmem⟩ := exists_merge hA hB r1 r2 (e1.trans e2.symm) (onG a1) (onH a2)
    have tri : ∀ q ∈ l, isPairOf M1 q = true ∨ isPairOf M2 q = true ∨ Flags.isDiacritic q.1 = false := by
      intro q hq
      cases hd : Flags.isDiacritic q.1 with
      | false => exact Or.inr (Or.inr rfl)
      | true =>
        rcases hmem q hq with h | h
        · exact Or.inl (onG a1 q h hd)
        · exact Or.inr (Or.inl (onH a2 q h hd))
    refine ⟨l, hri.keep _ _ _ uI ((accG l w1).2 (by rw [l1]; exact a1)) hord ?_,
      (accH l w2).2 (by rw [l2]; exact a2), (obeys_apart hA hB tri).2 ?_, ?_⟩
    · intro q hq hd
      rcases hmem q hq with h | h
      · obtain ⟨s, a, haa, e⟩ := flag_of_means a1 h hd
        rw [← e] at hd ⊢
        exact vG s a haa hd
      · obtain ⟨s, a, haa, e⟩ := flag_of_means a2 h hd
        rw [← e] at hd ⊢
        exact vH s a haa hd
    · rw [l1, l2]; exact ⟨o1, o2⟩
    · rw [← e1, ← l1]
      exact (withoutFlags_filter (fun q hq => (hB q hq).isDiacritic) l).symm

theorem withoutFlags_self {l : List (Sym × Sym)} (h : ∀ p ∈ l, Flags.isDiacritic p.1 = false) : withoutFlags l = l :=
  List.filter_eq_self.2 fun p hp => by rw [h p hp]; rfl

theorem meansObeying_plain {k : Graph} (ak : AlphaOK k) (hk : hasFlags k = false) {p : List (Sym × Sym)} {w : Int} :
    MeansObeying k p w ↔ Means k p w := by
  constructor
  · rintro ⟨l, ha, _, rfl⟩
    rw [withoutFlags_self (no_flags_on ak hk ha)]; exact ha
  · intro ha
    have hn := no_flags_on ak hk ha
    exact ⟨p, ha, obeys_plain hn, withoutFlags_self hn⟩

/-- If only `g` has flags, all of them are missing in `h`, and leaving them out leaves out all flags. -/
theorem filter_missing {g h : Graph} (ag : AlphaOK g) (tg : TwoSided g) (hh : hasFlags h = false) {l : List (Sym × Sym)}
    {w : Int} (ha : Means g l w) : l.filter (fun p => !isPairOf (missingFlags h g) p) = withoutFlags l := by
  unfold withoutFlags
  apply List.filter_congr
  intro p hp
  congr 1
  obtain ⟨s, a, haa, hst⟩ := mem_means ha p hp
  cases hd : Flags.isDiacritic p.1 with
  | true =>
    obtain ⟨rfl, hd⟩ := twoSided_pair tg haa hst (Or.inl hd)
    refine decide_eq_true ⟨rfl, mem_missingFlags.2 ⟨(ag.arcs s a haa).1, hd, fun hm => ?_⟩⟩
    have : hasFlags h = true := List.any_eq_true.2 ⟨a.inp, hm, hd⟩
    rw [hh] at this; cases this
  | false =>
    refine decide_eq_false fun hp => ?_
    have := (mem_missingFlags.1 hp.2).2.1
    rw [hd] at this
    cases this

theorem conj_one {g h : Graph} (uh : Usual h) (ag : AlphaOK g) (tg : TwoSided g) (fh : hasFlags h = false)
    (p : List (Sym × Sym)) (w1 w2 : Int) :
    (∃ l, Means g l w1 ∧ Means (insertMissing h g) l w2 ∧ Obeys (l.map Prod.fst) ∧ withoutFlags l = p) ↔
      MeansObeying g p w1 ∧ MeansObeying h p w2 := by
  rw [meansObeying_plain uh.good.alpha fh]
  constructor
  · rintro ⟨l, a1, a2, ho, rfl⟩
    rw [means_insertMissing uh.good.wf uh.good.alpha, filter_missing ag tg fh a1] at a2
    exact ⟨⟨l, a1, ho, rfl⟩, a2⟩
  · rintro ⟨⟨l, a1, ho, rfl⟩, a2⟩
    exact ⟨l, a1, by rw [means_insertMissing uh.good.wf uh.good.alpha, filter_missing ag tg fh a1]; exact a2, ho, rfl⟩

theorem intersect_core {B : Backend} (hB : B.Ok) {a b g h : Graph} (ua : Usual a) (ub : Usual b) (pa : Plain a) (pb : Plain b)
    (hab : ∀ p w1 w2, (∃ l, Means a l w1 ∧ Means b l w2 ∧ Obeys (l.map Prod.fst) ∧ withoutFlags l = p) ↔
      MeansObeying g p w1 ∧ MeansObeying h p w2) :
    ∃ r, intersect B a b = .ok r ∧ ∀ p w, MeansObeying r p w ↔
      ∃ w1 w2, MeansObeying g p w1 ∧ MeansObeying h p w2 ∧ w1 + w2 ≤ w := by
  obtain ⟨r, he, _, _, hm⟩ := C73_intersect hB a b ua ub (pa.same pb ua.good ub.good)
  refine ⟨r, he, fun p w => ?_⟩
  constructor
  · rintro ⟨l, hl, ho, hp⟩
    obtain ⟨w1, w2, h1, h2, hw⟩ := (hm l w).1 hl
    have := (hab p w1 w2).1 ⟨l, h1, h2, ho, hp⟩
    exact ⟨w1, w2, this.1, this.2, hw⟩
  · rintro ⟨w1, w2, h1, h2, hw⟩
    obtain ⟨l, a1, a2, ho, hp⟩ := (hab p w1 w2).2 ⟨h1, h2⟩
    exact ⟨l, (hm l w).2 ⟨w1, w2, a1, a2, hw⟩, ho, hp⟩

/-- **C92.**  hfst-conjunct -F accepts a sequence exactly if both transducers accept it on paths whose flags let through, each
with its own flags.  (The flags are on both sides of transitions and have values.  What is assumed of `remove_illegal_flag_paths` is
stated in the specification.) -/
theorem C92_conjunction (B : Backend) (hB : B.Ok) (removeIllegal : Graph → Graph) (hri : RemovesIllegal removeIllegal)
    (g h : Graph) (hg : Proper g) (hh : Proper h) (vg : Valued g) (vh : Valued h) :
    ∃ r, conjunctStep B removeIllegal g h = .ok r ∧ ∀ p w, MeansObeying r p w ↔
      ∃ w1 w2, MeansObeying g p w1 ∧ MeansObeying h p w2 ∧ w1 + w2 ≤ w := by
  have ag := hg.usual.good.alpha
  have ah := hh.usual.good.alpha
  unfold conjunctStep harmonizeFlags
  cases fg : hasFlags g <;> cases fh : hasFlags h
  · simp only [Bool.or_self, Bool.false_eq_true, if_false]
    refine intersect_core hB hg.usual hh.usual hg.plain hh.plain fun p w1 w2 => ?_
    constructor
    · rintro ⟨l, h1, h2, ho, rfl⟩
      exact ⟨⟨l, h1, ho, rfl⟩, ⟨l, h2, ho, rfl⟩⟩
    · rintro ⟨h1, h2⟩
      rw [meansObeying_plain ag fg] at h1
      rw [meansObeying_plain ah fh] at h2
      exact ⟨p, h1, h2, obeys_plain (no_flags_on ag fg h1), withoutFlags_self (no_flags_on ag fg h1)⟩
  · simp only [Bool.or_true, Bool.and_true, Bool.false_eq_true, if_false, if_true]
    refine intersect_core hB (usual_insertMissing hg.usual) hh.usual (plain_insertMissing hg.usual.good.wf hg.plain) hh.plain
      fun p w1 w2 => ?_
    rw [and_comm, ← conj_one hg.usual ah hh.twoSided fg p w2 w1]
    constructor
    · rintro ⟨l, h1, h2, h3⟩; exact ⟨l, h2, h1, h3⟩
    · rintro ⟨l, h1, h2, h3⟩; exact ⟨l, h2, h1, h3⟩
  · simp only [Bool.or_false, Bool.and_false, Bool.and_true, Bool.false_eq_true, if_false, if_true]
    exact intersect_core hB hg.usual (usual_insertMissing hh.usual) hg.plain (plain_insertMissing hh.usual.good.wf hh.plain)
      fun p w1 w2 => conj_one hh.usual ag hg.twoSided fh p w1 w2
  · simp only [Bool.or_self, Bool.and_self, if_true]
    have u1 := usual_rename no_dot_1 hg.usual
    have u2 := usual_rename no_dot_2 hh.usual
    have p1 := plain_rename no_dot_1 ag hg.plain
    have p2 := plain_rename no_dot_2 ah hh.plain
    have uI := usual_insertMissing (h := rename "_2".toList h) u1
    refine intersect_core hB (hri.usual _ uI) (usual_insertMissing u2)
      (hri.plain _ uI (plain_insertMissing u1.good.wf p1)) (plain_insertMissing u2.good.wf p2) fun p w1 w2 => ?_
    rw [conj_core hri u1 u2 (twoSided_rename no_dot_1 hg.twoSided) (twoSided_rename no_dot_2 hh.twoSided)
      (valued_rename no_dot_1 vg) (valued_rename no_dot_2 vh)
      (fun x hx hd => flag_in_rename no_dot_1 hx hd) (fun x hx hd => flag_in_rename no_dot_2 hx hd),
      C92_rename_meaning _ no_dot_1 g hg, C92_rename_meaning _ no_dot_2 h hh]

end Hfst.FlagHarm
