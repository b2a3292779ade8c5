import Verif.Props.SfstOps

/-!
# C65: repetition, free insertion and reversal in the SFST back-end
-/

namespace Hfst.Sfst

/-! ## Repetition -/

theorem fresh_closed : Graph.fresh.Closed :=
  ⟨Nat.zero_lt_one, fun _ _ a ha => by cases ha⟩

theorem epsilon_closed : (Graph.fresh.setFinal 0 true).Closed := by
  refine ⟨Nat.zero_lt_one, fun n _ a ha => ?_⟩
  rw [node_setFinal] at ha
  split at ha <;> cases ha

theorem epsilon_takes (w : List Label) : (Graph.fresh.setFinal 0 true).Takes 0 w ↔ w = [] := by
  have h0 : (Graph.fresh.setFinal 0 true).node 0 = ⟨[], true⟩ := rfl
  constructor
  · intro h
    cases h with
    | stop _ => rfl
    | skip hs _ => unfold Graph.Step at hs; rw [h0] at hs; cases hs
    | read _ hs _ => unfold Graph.Step at hs; rw [h0] at hs; cases hs
  · rintro rfl
    exact .stop rfl

/-- What is accepted after the final nodes were linked to the root, and the root was made final. -/
theorem star_takes {g g' : Graph} {V : Nat → Prop}
    (hV : ∀ j, V j → ∀ a ∈ (g.node j).arcs, V a.2) (hV0 : V 0)
    (h0 : ∀ j, V j → ∀ a ∈ (g.node j).arcs, a.2 ≠ 0)
    (harcs : ∀ j, V j → (g'.node j).arcs = (catNode 0 (g.node j)).arcs)
    (hfin : ∀ j, V j → ((g'.node j).final = true ↔ j = 0)) (w : List Label) :
    g'.Takes 0 w ↔ Repeated (g.Takes 0) w := by
  constructor
  · intro h
    have key : ∀ j, V j → g'.Takes j w →
        (j = 0 → Repeated (g.Takes 0) w) ∧
        (j ≠ 0 → ∃ u v, w = u ++ v ∧ g.Takes j u ∧ Repeated (g.Takes 0) v) := by
      clear h
      intro j hj h
      unfold Graph.Takes at h
      induction h with
      | stop hf => exact ⟨fun _ => .none, fun hj0 => absurd ((hfin _ hj).1 hf) hj0⟩
      | @skip k k' w hs hrest ih =>
        unfold Graph.Step at hs
        rw [harcs _ hj, mem_catNode] at hs
        rcases hs with hs | ⟨hf, he⟩
        · obtain ⟨u, v, rfl, hu, hv⟩ := (ih (hV _ hj _ hs)).2 (h0 _ hj _ hs)
          refine ⟨?_, fun _ => ⟨u, v, rfl, .skip hs hu, hv⟩⟩
          rintro rfl
          exact .more (.skip hs hu) hv
        · cases he
          have hr := (ih hV0).1 rfl
          exact ⟨fun _ => hr, fun _ => ⟨[], _, rfl, .stop hf, hr⟩⟩
      | @read k k' l w hl hs hrest ih =>
        unfold Graph.Step at hs
        rw [harcs _ hj, mem_catNode] at hs
        rcases hs with hs | ⟨hf, he⟩
        · obtain ⟨u, v, rfl, hu, hv⟩ := (ih (hV _ hj _ hs)).2 (h0 _ hj _ hs)
          refine ⟨?_, fun _ => ⟨l :: u, v, rfl, .read hl hs hu, hv⟩⟩
          rintro rfl
          exact Repeated.more (u := l :: u) (.read hl hs hu) hv
        · cases he
          exact absurd rfl hl
    exact (key 0 hV0 h).1 rfl
  · intro h
    induction h with
    | none => exact .stop ((hfin 0 hV0).2 rfl)
    | @more u v hu _ ih =>
      have : ∀ j, V j → g.Takes j u → g'.Takes j (u ++ v) := by
        clear hu
        intro j hj hu
        unfold Graph.Takes at hu
        induction hu with
        | @stop k hf =>
          refine .skip (k' := 0) ?_ ih
          unfold Graph.Step
          rw [harcs _ hj, mem_catNode]
          exact Or.inr ⟨hf, rfl⟩
        | @skip k k' w hs _ ih =>
          refine .skip (k' := k') ?_ (ih (hV _ hj _ hs))
          unfold Graph.Step
          rw [harcs _ hj, mem_catNode]
          exact Or.inl hs
        | @read k k' l w hl hs _ ih =>
          refine .read (k' := k') hl ?_ (ih (hV _ hj _ hs))
          unfold Graph.Step
          rw [harcs _ hj, mem_catNode]
          exact Or.inl hs
      exact this 0 hV0 hu

/-- **C65, repetition** (`repeat_star`): the result accepts exactly the sequences made of any number of
accepted ones. -/
theorem C65_star {F : Fst} (hF : F.Honest) :
    ∃ R, F.star = some R ∧ R.Honest ∧ ∀ w, R.Takes w ↔ Repeated F.Takes w := by
  obtain ⟨C, hC, hCh, hCt⟩ := (C65_copy hF).1
  obtain ⟨D, hD, hDh, hDt, hD0⟩ := concat_exact
    (F := ⟨Graph.fresh.setFinal 0 true, false, false, []⟩)
    (G := { C with pairs := copyPairs C.pairs F.pairs }) epsilon_closed hCh.closed
  have hDF : ∀ w, D.graph.Takes 0 w ↔ F.Takes w := by
    intro w
    refine (hDt w).trans ?_
    constructor
    · rintro ⟨u, v, rfl, hu, hv⟩
      rw [(epsilon_takes u).1 hu]
      exact (hCt v).1 hv
    · intro h
      exact ⟨[], w, rfl, (epsilon_takes []).2 rfl, (hCt w).2 h⟩
  obtain ⟨V, g', h3, hs3, hV, hin, hout⟩ := recCat_shape hDh.closed (r := 0) hDh.closed.1 0
  have hVc : ∀ j, V j → ∀ a ∈ (D.graph.node j).arcs, V a.2 := fun j hj a ha =>
    (hV _).2 (((hV j).1 hj).trans_step (l := a.1) ha)
  have hlt : ∀ j, D.graph.Reach 0 j → j < D.graph.size := by
    have : ∀ n m, D.graph.Reach n m → n < D.graph.size → m < D.graph.size := by
      intro n m h
      induction h with
      | refl => exact id
      | @step n m p l hs _ ih => exact fun hn => ih (hDh.closed.2 n hn (l, m) hs)
    exact fun j h => this 0 j h hDh.closed.1
  refine ⟨⟨g'.setFinal 0 true, false, false, D.pairs⟩, ?_,
    ⟨⟨?_, ?_⟩, (by intro h; cases h), (by intro h; cases h)⟩, fun w => ?_⟩
  · unfold Fst.star
    rw [hC]
    dsimp only [Option.bind]
    rw [hD]
    dsimp only
    rw [h3]
  · show 0 < g'.size
    rw [hs3]
    exact hDh.closed.1
  · intro n hn a ha
    show a.2 < g'.size
    rw [hs3]
    have hn' : n < D.graph.size := hs3 ▸ hn
    have ha' : a ∈ (g'.node n).arcs := by
      have : a ∈ ((g'.setFinal 0 true).node n).arcs := ha
      rw [node_setFinal] at this
      split at this <;> exact this
    by_cases hv : V n
    · rw [hin n hv, mem_catNode] at ha'
      rcases ha' with ha' | ⟨_, rfl⟩
      · exact hDh.closed.2 n hn' a ha'
      · exact hDh.closed.1
    · rw [hout n hv] at ha'
      exact hDh.closed.2 n hn' a ha'
  · show (g'.setFinal 0 true).Takes 0 w ↔ _
    have := star_takes (g := D.graph) (g' := g'.setFinal 0 true) (V := V) hVc ((hV 0).2 .refl)
      (fun j hj => hD0 j (hlt j ((hV j).1 hj))) (fun j hj => by
        rw [node_setFinal, ← hin j hj]
        split <;> rfl) (fun j hj => by
        rw [node_setFinal]
        by_cases hj0 : j = 0
        · rw [if_pos hj0]; simp [hj0]
        · rw [if_neg hj0, hin j hj, catNode_final]; simp [hj0]) w
    rw [this]
    clear this
    constructor
    · intro h
      induction h with
      | none => exact .none
      | more hu _ ih => exact .more ((hDF _).1 hu) ih
    · intro h
      induction h with
      | none => exact .none
      | more hu _ ih => exact .more ((hDF _).2 hu) ih

/-! ## Operations of `SfstTransducer.cc` made of these -/

theorem none_honest : Fst.none.Honest :=
  ⟨fresh_closed, (by intro h; cases h), (by intro h; cases h)⟩

theorem epsilon_honest : Fst.epsilon.Honest :=
  ⟨epsilon_closed, (by intro h; cases h), (by intro h; cases h)⟩

theorem none_takes (w : List Label) : ¬ Fst.none.Takes w := by
  intro h
  cases h with
  | stop hf => cases hf
  | skip hs _ => cases hs
  | read _ hs _ => cases hs

/-- **C65, once or more, and at most once** (`repeat_plus`, `optionalize`). -/
theorem C65_plus_optional {F : Fst} (hF : F.Honest) :
    (∃ R, F.plus = some R ∧ R.Honest ∧
      ∀ w, R.Takes w ↔ ∃ u v, w = u ++ v ∧ F.Takes u ∧ Repeated F.Takes v) ∧
    (∃ R, F.optional = some R ∧ R.Honest ∧ ∀ w, R.Takes w ↔ F.Takes w ∨ w = []) := by
  constructor
  · obtain ⟨S, hS, hSh, hSt⟩ := C65_star hF
    obtain ⟨R, hR, hRh, hRt⟩ := C65_concat hF.closed hSh.closed
    refine ⟨R, by unfold Fst.plus; rw [hS]; exact hR, hRh, fun w => (hRt w).trans ?_⟩
    constructor
    · rintro ⟨u, v, h, hu, hv⟩
      exact ⟨u, v, h, hu, (hSt v).1 hv⟩
    · rintro ⟨u, v, h, hu, hv⟩
      exact ⟨u, v, h, hu, (hSt v).2 hv⟩
  · obtain ⟨R, hR, hRh, hRt⟩ := C65_union hF.closed epsilon_honest.closed
    exact ⟨R, hR, hRh, fun w => (hRt w).trans (or_congr Iff.rfl (epsilon_takes w))⟩

theorem repeatN_exact {F : Fst} (hF : F.Honest) (n : Nat) :
    ∃ R, F.repeatN n = some R ∧ R.Honest ∧ ∀ w, R.Takes w ↔ Times F.Takes n w := by
  induction n with
  | zero =>
    refine ⟨Fst.epsilon, rfl, epsilon_honest, fun w => (epsilon_takes w).trans ?_⟩
    constructor
    · rintro rfl; exact .zero
    · intro h; cases h; rfl
  | succ n ih =>
    obtain ⟨P, hP, hPh, hPt⟩ := ih
    obtain ⟨R, hR, hRh, hRt⟩ := C65_concat hPh.closed hF.closed
    refine ⟨R, ?_, hRh, fun w => (hRt w).trans ?_⟩
    · unfold Fst.repeatN at hP ⊢
      rw [List.range_succ, List.foldlM_append, hP]
      show ((P.concat F).bind fun s => some s) = _
      rw [hR]; rfl
    · constructor
      · rintro ⟨u, v, rfl, hu, hv⟩
        exact .succ ((hPt u).1 hu) hv
      · intro h
        cases h with
        | succ hu hv => exact ⟨_, _, rfl, (hPt _).2 hu, hv⟩

/-- **C65, a number of times** (`repeat_n`, `repeat_le_n`): exactly `n`, or at most `n`, accepted sequences
one after the other. -/
theorem C65_times {F : Fst} (hF : F.Honest) (n : Nat) :
    (∃ R, F.repeatN n = some R ∧ R.Honest ∧ ∀ w, R.Takes w ↔ Times F.Takes n w) ∧
    (∃ R, F.repeatLeN n = some R ∧ R.Honest ∧ ∀ w, R.Takes w ↔ ∃ i, i ≤ n ∧ Times F.Takes i w) := by
  refine ⟨repeatN_exact hF n, ?_⟩
  have key : ∀ m, ∃ R, (List.range m).foldlM
      (fun result i => (F.repeatN i).bind fun power => power.union result) Fst.none = some R ∧ R.Honest ∧
      ∀ w, R.Takes w ↔ ∃ i, i < m ∧ Times F.Takes i w := by
    intro m
    induction m with
    | zero =>
      refine ⟨Fst.none, rfl, none_honest, fun w => ⟨fun h => absurd h (none_takes w), ?_⟩⟩
      rintro ⟨i, hi, _⟩
      cases hi
    | succ m ih =>
      obtain ⟨P, hP, hPh, hPt⟩ := ih
      obtain ⟨Q, hQ, hQh, hQt⟩ := repeatN_exact hF m
      obtain ⟨R, hR, hRh, hRt⟩ := C65_union hQh.closed hPh.closed
      refine ⟨R, ?_, hRh, fun w => (hRt w).trans ?_⟩
      · rw [List.range_succ, List.foldlM_append, hP]
        show (((F.repeatN m).bind fun power => power.union P).bind fun s => some s) = _
        rw [hQ]
        show ((Q.union P).bind fun s => some s) = _
        rw [hR]; rfl
      · rw [hQt, hPt]
        constructor
        · rintro (h | ⟨i, hi, h⟩)
          · exact ⟨m, Nat.lt_succ_self _, h⟩
          · exact ⟨i, Nat.lt_succ_of_lt hi, h⟩
        · rintro ⟨i, hi, h⟩
          by_cases him : i = m
          · exact Or.inl (him ▸ h)
          · exact Or.inr ⟨i, by omega, h⟩
  obtain ⟨R, hR, hRh, hRt⟩ := key (n + 1)
  refine ⟨R, hR, hRh, fun w => (hRt w).trans ?_⟩
  constructor
  · rintro ⟨i, hi, h⟩; exact ⟨i, by omega, h⟩
  · rintro ⟨i, hi, h⟩; exact ⟨i, by omega, h⟩

/-! ## Free insertion -/

/-- **C65, free insertion** (`insert_freely`): with a label that is not 0:0, the result accepts exactly
the accepted sequences with the label put in anywhere.  Partial: the result keeps the marks
"deterministic" and "minimised" of the original, which it may not deserve
(`C65_insert_violated`). -/
theorem C65_insert_partial {F : Fst} (hF : F.Honest) {l : Label} (hl : l ≠ ⟨0, 0⟩) :
    ∃ R, F.freelyInsert l = some R ∧ R.graph.Closed ∧
      (F.deterministic = false → F.minimised = false → R.Honest) ∧
      ∀ w, R.Takes w ↔ ∃ v, F.Takes v ∧ Inserted l v w := by
  obtain ⟨C, hC, hCh, hd, hm, hCt⟩ := copy_exact hF false
  have hCt' : ∀ w, C.graph.Takes 0 w ↔ F.Takes w := by
    intro w
    have : w.map (copyLabel false) = w := List.map_id w
    have h := hCt w
    rwa [this] at h
  obtain ⟨V, g', h, hs, hV, h1, h2⟩ := visit_all (g := C.graph)
    (pre := fun n nd => { nd with arcs := (l, n) :: nd.arcs }) (post := fun _ nd => nd)
    (fun j hj a ha => by
      rcases List.mem_cons.1 ha with rfl | ha
      · exact hj
      · exact hCh.closed.2 j hj a ha) (n := 0) hCh.closed.1
  have hVc : ∀ j, j ∈ V → ∀ a ∈ (C.graph.node j).arcs, a.2 ∈ V := by
    intro j hj a ha
    rw [hV] at hj ⊢
    have : ∀ n m, ListReach (fun j => (l, j) :: (C.graph.node j).arcs) n m →
        ∀ a ∈ (C.graph.node m).arcs, ListReach (fun j => (l, j) :: (C.graph.node j).arcs) n a.2 := by
      intro n m h
      induction h with
      | refl => exact fun a ha => .step (a := a) (List.mem_cons_of_mem _ ha) .refl
      | step hs _ ih => exact fun a ha => .step hs (ih a ha)
    exact this 0 j hj a ha
  have hV0 : 0 ∈ V := (hV 0).2 .refl
  have hcl : g'.Closed := by
    refine ⟨hs ▸ hCh.closed.1, fun n hn a ha => ?_⟩
    rw [hs] at hn ⊢
    by_cases hv : n ∈ V
    · rw [h1 n hv] at ha
      rcases List.mem_cons.1 ha with rfl | ha
      · exact hn
      · exact hCh.closed.2 n hn a ha
    · rw [h2 n hv] at ha
      exact hCh.closed.2 n hn a ha
  refine ⟨{ C with graph := g' }, ?_, hcl, ?_, ?_⟩
  · unfold Fst.freelyInsert
    rw [hC]
    dsimp only [Option.bind]
    rw [h]
    rfl
  · intro h3 h4
    refine ⟨hcl, fun h => ?_, fun h => ?_⟩
    · have : C.deterministic = true := h
      rw [hd, h3] at this
      cases this
    · have : C.minimised = true := h
      rw [hm, h4] at this
      cases this
  · intro w
    have key : ∀ j, j ∈ V → (g'.Takes j w ↔ ∃ v, C.graph.Takes j v ∧ Inserted l v w) := by
      intro j hj
      constructor
      · intro h
        unfold Graph.Takes at h
        induction h with
        | @stop k hf =>
          rw [h1 _ hj] at hf
          exact ⟨[], .stop hf, .done⟩
        | @skip k k' w hs _ ih =>
          unfold Graph.Step at hs
          rw [h1 _ hj] at hs
          rcases List.mem_cons.1 hs with he | hs
          · exact absurd (congrArg Prod.fst he).symm hl
          · obtain ⟨v, hv, hi⟩ := ih (hVc _ hj _ hs)
            exact ⟨v, .skip hs hv, hi⟩
        | @read k k' l' w hl' hs _ ih =>
          unfold Graph.Step at hs
          rw [h1 _ hj] at hs
          rcases List.mem_cons.1 hs with he | hs
          · cases he
            obtain ⟨v, hv, hi⟩ := ih hj
            exact ⟨v, hv, .put hi⟩
          · obtain ⟨v, hv, hi⟩ := ih (hVc _ hj _ hs)
            exact ⟨_ :: v, .read hl' hs hv, .keep hi⟩
      · rintro ⟨v, hv, hi⟩
        have hput : ∀ j, j ∈ V → ∀ w, g'.Takes j w → g'.Takes j (l :: w) := by
          intro j hj w hw
          refine .read hl (k' := j) ?_ hw
          unfold Graph.Step
          rw [h1 _ hj]
          exact List.mem_cons_self ..
        unfold Graph.Takes at hv
        induction hv generalizing w with
        | @stop k hf =>
          generalize he : ([] : List Label) = v at hi
          induction hi with
          | done =>
            refine .stop ?_
            show (g'.node k).final = true
            rw [h1 _ hj]
            exact hf
          | keep _ _ => cases he
          | put _ ih => exact hput k hj _ (ih he)
        | @skip k k' v hs _ ih =>
          refine .skip (k' := k') ?_ (ih _ (hVc _ hj _ hs) hi)
          unfold Graph.Step
          rw [h1 _ hj]
          exact List.mem_cons_of_mem _ hs
        | @read k k' l' v hl' hs _ ih =>
          generalize he : l' :: v = v' at hi
          induction hi with
          | done => cases he
          | keep hi' _ =>
            cases he
            refine .read hl' (k' := k') ?_ (ih _ (hVc _ hj _ hs) hi')
            unfold Graph.Step
            rw [h1 _ hj]
            exact List.mem_cons_of_mem _ hs
          | put _ ih' => exact hput k hj _ (ih' he)
    show g'.Takes 0 w ↔ _
    rw [key 0 hV0]
    constructor
    · rintro ⟨v, hv, hi⟩; exact ⟨v, (hCt' v).1 hv, hi⟩
    · rintro ⟨v, hv, hi⟩; exact ⟨v, (hCt' v).2 hv, hi⟩

end Hfst.Sfst
