import Verif.Lemmas.SfstHopLoop
import Verif.Lemmas.SfstVisit
import Verif.Props.SfstDet

/-!
# From groups to the minimal transducer
-/

namespace Hfst.Sfst

/-! ## The nodes in reach -/

theorem listReach_iff {g : Graph} {n m : Nat} : ListReach (fun j => (g.node j).arcs) n m ↔ g.Reach n m := by
  constructor
  · intro h
    induction h with
    | refl => exact .refl
    | @step n p a ha _ ih => exact .step (l := a.1) ha ih
  · intro h
    induction h with
    | refl => exact .refl
    | @step n m p l hs _ ih => exact .step (a := (l, m)) hs ih

theorem visit_nodup {pre post : Nat → Node → Node} (f : Nat) :
    ∀ {n : Nat} {s s' : List Nat × Graph}, visit pre post f n s = some s' → s.1.Nodup → s'.1.Nodup := by
  induction f with
  | zero => intro n s s' h; cases h
  | succ f ih =>
    intro n s s' h hn
    unfold visit at h
    split at h
    · cases h; exact hn
    · next hm =>
      dsimp only at h
      obtain ⟨s2, h2, rfl⟩ := Option.map_eq_some_iff.1 h
      have key : ∀ (L : List (Label × Nat)) (s s' : List Nat × Graph),
          L.foldlM (fun s' arc => visit pre post f arc.2 s') s = some s' → s.1.Nodup → s'.1.Nodup := by
        intro L
        induction L with
        | nil => intro s s' h hn; cases h; exact hn
        | cons a L ihL =>
          intro s s' h hn
          rw [List.foldlM_cons] at h
          obtain ⟨s1, h1, h2⟩ := Option.bind_eq_some_iff.1 h
          exact ihL s1 s' h2 (ih h1 hn)
      have hn' : (n :: s.1).Nodup := List.nodup_cons.2 ⟨hm, hn⟩
      have h3 := key _ _ _ h2 (by exact hn')
      exact h3

theorem nodeArray_ok {g : Graph} (hg : g.Closed) :
    ∃ ns, nodeArray g = some ns ∧ ns.Nodup ∧ ∀ j, j ∈ ns ↔ g.Reach 0 j := by
  obtain ⟨V, g', h, _, hV, _⟩ := visit_all (g := g) (pre := fun _ nd => nd) (post := fun _ nd => nd)
    (fun j hj a ha => hg.2 j hj a ha) hg.1
  refine ⟨V.reverse, by unfold nodeArray; rw [h]; rfl, ?_, fun j => ?_⟩
  · have := visit_nodup _ h List.nodup_nil
    unfold List.Nodup at this ⊢
    rw [List.pairwise_reverse]
    exact this.imp (fun h => h.symm)
  · rw [List.mem_reverse, hV, listReach_iff]

theorem arcLabels_ok {g : Graph} (hg : g.Closed) :
    ∃ ls, arcLabels g = some ls ∧ ∀ l, l ∈ ls ↔ ∃ n m, g.Reach 0 n ∧ g.Step n l m := by
  obtain ⟨ns, h, _, hns⟩ := nodeArray_ok hg
  refine ⟨_, by unfold arcLabels; rw [h]; rfl, fun l => ?_⟩
  rw [List.mem_flatMap]
  constructor
  · rintro ⟨n, hn, hl⟩
    obtain ⟨a, ha, rfl⟩ := List.mem_map.1 hl
    exact ⟨n, a.2, (hns n).1 hn, ha⟩
  · rintro ⟨n, m, hn, hs⟩
    exact ⟨n, (hns n).2 hn, List.mem_map.2 ⟨(l, m), hs, rfl⟩⟩

theorem mem_copyPairs {ls more : List Label} {l : Label} :
    l ∈ copyPairs ls more ↔ l ∈ ls ∨ (l ∈ more ∧ l ≠ ⟨0, 0⟩) := by
  unfold copyPairs
  induction more generalizing ls with
  | nil => simp
  | cons x xs ih =>
    rw [List.foldl_cons, ih]
    have hx : l ∈ insertPair ls x ↔ l ∈ ls ∨ (l = x ∧ l ≠ ⟨0, 0⟩) := by
      unfold insertPair
      split
      · next he =>
        have hx0 : x = ⟨0, 0⟩ := isEps_iff.1 he
        constructor
        · exact .inl
        · rintro (h | ⟨rfl, h⟩)
          · exact h
          · exact absurd hx0 h
      · next he =>
        split
        · next hm =>
          constructor
          · exact .inl
          · rintro (h | ⟨rfl, _⟩)
            · exact h
            · exact hm
        · rw [List.mem_cons]
          constructor
          · rintro (rfl | h)
            · exact .inr ⟨rfl, fun h => he (isEps_iff.2 h)⟩
            · exact .inl h
          · rintro (h | ⟨rfl, _⟩)
            · exact .inr h
            · exact .inl rfl
    rw [hx, List.mem_cons]
    constructor
    · rintro ((h | ⟨h1, h2⟩) | ⟨h1, h2⟩)
      · exact .inl h
      · exact .inr ⟨.inl h1, h2⟩
      · exact .inr ⟨.inr h1, h2⟩
    · rintro (h | ⟨h1 | h1, h2⟩)
      · exact .inl (.inl h)
      · exact .inl (.inr ⟨h1, h2⟩)
      · exact .inr ⟨h1, h2⟩

theorem minimiseAlphabet_ok {F : Fst} (hF : F.graph.Closed) :
    ∃ R, F.minimiseAlphabet = some R ∧ R.graph = F.graph ∧ R.deterministic = F.deterministic ∧
      R.minimised = F.minimised ∧
      ∀ l, l ∈ R.pairs ↔ l ≠ ⟨0, 0⟩ ∧ ∃ n m, F.graph.Reach 0 n ∧ F.graph.Step n l m := by
  obtain ⟨ls, h, hl⟩ := arcLabels_ok hF
  refine ⟨{ F with pairs := copyPairs [] ls }, by unfold Fst.minimiseAlphabet; rw [h]; rfl, rfl, rfl, rfl, fun l => ?_⟩
  show l ∈ copyPairs [] ls ↔ _
  rw [mem_copyPairs, hl]
  constructor
  · rintro (h | ⟨h1, h2⟩)
    · cases h
    · exact ⟨h2, h1⟩
  · rintro ⟨h1, h2⟩
    exact .inr ⟨h2, h1⟩

/-! ## The groups at the beginning -/

theorem foldl_linkIn {xs : List Nat} : ∀ {acc : List Nat}, xs.Nodup → acc.Nodup → (∀ x ∈ xs, x ∉ acc) →
    (xs.foldl (fun ys s => linkIn s ys) acc).Nodup ∧
    ∀ x, x ∈ xs.foldl (fun ys s => linkIn s ys) acc ↔ x ∈ xs ∨ x ∈ acc := by
  induction xs with
  | nil => exact fun _ h _ => ⟨h, fun x => by simp⟩
  | cons y ys ih =>
    intro acc hn ha hd
    obtain ⟨h1, h2⟩ := List.nodup_cons.1 hn
    obtain ⟨h3, h4⟩ := ih (acc := linkIn y acc) h2 (nodup_linkIn ha (hd y (List.mem_cons_self ..)))
      (fun x hx hm => by
        rcases mem_linkIn.1 hm with rfl | hm
        · exact h1 hx
        · exact hd x (List.mem_cons_of_mem _ hx) hm)
    refine ⟨h3, fun x => ?_⟩
    rw [List.foldl_cons, h4, mem_linkIn, List.mem_cons]
    constructor
    · rintro (h | h | h)
      · exact .inl (.inr h)
      · exact .inl (.inl h)
      · exact .inr h
    · rintro ((h | h) | h)
      · exact .inr (.inl h)
      · exact .inl h
      · exact .inr (.inr h)

theorem start_ok {g : Graph} {V : List Nat} (hV : HNodes g V) (hf : ∃ n ∈ V, (g.node n).final = true) :
    ∃ H, Hop.start g V = some H ∧ HKeeps g V H ∧ HInv g V H (fun _ => False) (fun _ => False) ∧
      H.agenda.length + V.length < V.length + 3 + H.groups.length := by
  obtain ⟨f1, f2⟩ := foldl_linkIn (acc := []) (hV.nodup.filter (fun n => (g.node n).final)) List.nodup_nil
    (fun _ _ h => by cases h)
  obtain ⟨o1, o2⟩ := foldl_linkIn (acc := []) (hV.nodup.filter (fun n => !(g.node n).final)) List.nodup_nil
    (fun _ _ h => by cases h)
  unfold Hop.start
  dsimp only
  generalize (V.filter fun n => (g.node n).final).foldl (fun xs s => linkIn s xs) [] = fin at f1 f2
  generalize (V.filter fun n => !(g.node n).final).foldl (fun xs s => linkIn s xs) [] = oth at o1 o2
  have hfin : ∀ x, x ∈ fin ↔ x ∈ V ∧ (g.node x).final = true := fun x => by
    rw [f2, List.mem_filter]; simp
  have hoth : ∀ x, x ∈ oth ↔ x ∈ V ∧ (g.node x).final = false := fun x => by
    rw [o2, List.mem_filter]; simp
  have hne : fin ≠ [] := by
    obtain ⟨n, hn, hnf⟩ := hf
    have := (hfin n).2 ⟨hn, hnf⟩
    intro h
    rw [h] at this
    cases this
  rw [if_neg hne]
  have hco : ∀ p ∈ V, ∀ q ∈ V, Same g p q → (if (g.node p).final = true then 0 else 1) =
      if (g.node q).final = true then 0 else 1 := by
    intro p hp q hq hpq
    have h := hpq []
    rw [takes_noeps (hV.noeps p hp), takes_noeps (hV.noeps q hq)] at h
    have h' : (g.node p).final = true ↔ (g.node q).final = true := by
      constructor
      · intro hf
        rcases h.1 (.inl ⟨rfl, hf⟩) with h | ⟨_, _, _, h, _⟩
        · exact h.2
        · cases h
      · intro hf
        rcases h.2 (.inl ⟨rfl, hf⟩) with h | ⟨_, _, _, h, _⟩
        · exact h.2
        · cases h
    by_cases hpf : (g.node p).final = true
    · rw [if_pos hpf, if_pos (h'.1 hpf)]
    · rw [if_neg hpf, if_neg (fun h => hpf (h'.2 h))]
  have hfi : ∀ p ∈ V, ∀ q ∈ V, (if (g.node p).final = true then 0 else 1) =
      (if (g.node q).final = true then 0 else 1) → (g.node p).final = (g.node q).final := by
    intro p hp q hq he
    cases hpf : (g.node p).final <;> cases hqf : (g.node q).final <;> simp [hpf, hqf] at he ⊢
  have hinv : ∀ H : Hop, (∀ s ∈ V, OnAgenda (H.groupOf s) H.agenda) → HInv g V H (fun _ => False) (fun _ => False) := by
    intro H hon ρ h1 h2 _ i l
    by_cases ho : OnAgenda i H.agenda
    · exact h2 i ho l
    · intro p q _
      have hno : ∀ m, ¬ H.block V i m := fun m hm => ho (hm.2 ▸ hon m hm.1)
      exact ⟨fun ⟨m, _, hm⟩ => absurd hm (hno m), fun ⟨m, _, hm⟩ => absurd hm (hno m)⟩
  by_cases ho : oth = []
  · rw [if_pos ho]
    have hall : ∀ s ∈ V, (g.node s).final = true := by
      intro s hs
      cases h : (g.node s).final with
      | true => rfl
      | false =>
        have := (hoth s).2 ⟨hs, h⟩
        rw [ho] at this
        cases this
    have hget : ∀ (i : Nat) (G : HGroup), [(⟨fin, []⟩ : HGroup)][i]? = some G → i = 0 ∧ G = ⟨fin, []⟩ := by
      intro i G h
      cases i with
      | zero => simp at h; exact ⟨rfl, h.symm⟩
      | succ i => simp at h
    refine ⟨_, rfl, ⟨⟨?_, ?_, ?_, ?_, ?_⟩, hfi, hco⟩, hinv _ ?_, ?_⟩
    · intro i G h; rw [(hget i G h).2]
    · intro i G h; rw [(hget i G h).2]; exact hne
    · intro i G h; rw [(hget i G h).2]; exact f1
    · intro s hs
      exact ⟨⟨fin, []⟩, by simp [hall s hs], (hfin s).2 ⟨hs, hall s hs⟩⟩
    · intro i G s h hs
      obtain ⟨rfl, rfl⟩ := hget i G h
      obtain ⟨h1, h2⟩ := (hfin s).1 hs
      exact ⟨h1, by simp [h2]⟩
    · intro s hs
      refine onAgenda_add.2 (.inl ?_)
      simp [hall s hs]
    · simp only [length_addAgenda, List.length_nil, List.length_cons]
      omega
  · rw [if_neg ho]
    have hget : ∀ (i : Nat) (G : HGroup), [(⟨fin, []⟩ : HGroup), ⟨oth, []⟩][i]? = some G →
        (i = 0 ∧ G = ⟨fin, []⟩) ∨ (i = 1 ∧ G = ⟨oth, []⟩) := by
      intro i G h
      match i, h with
      | 0, h => simp at h; exact .inl ⟨rfl, h.symm⟩
      | 1, h => simp at h; exact .inr ⟨rfl, h.symm⟩
      | i + 2, h => simp at h
    refine ⟨_, rfl, ⟨⟨?_, ?_, ?_, ?_, ?_⟩, hfi, hco⟩, hinv _ ?_, ?_⟩
    · intro i G h; rcases hget i G h with ⟨_, rfl⟩ | ⟨_, rfl⟩ <;> rfl
    · intro i G h; rcases hget i G h with ⟨_, rfl⟩ | ⟨_, rfl⟩ <;> assumption
    · intro i G h; rcases hget i G h with ⟨_, rfl⟩ | ⟨_, rfl⟩ <;> assumption
    · intro s hs
      cases h : (g.node s).final with
      | true => exact ⟨⟨fin, []⟩, by simp [h], (hfin s).2 ⟨hs, h⟩⟩
      | false => exact ⟨⟨oth, []⟩, by simp [h], (hoth s).2 ⟨hs, h⟩⟩
    · intro i G s h hs
      rcases hget i G h with ⟨rfl, rfl⟩ | ⟨rfl, rfl⟩
      · obtain ⟨h1, h2⟩ := (hfin s).1 hs
        exact ⟨h1, by simp [h2]⟩
      · obtain ⟨h1, h2⟩ := (hoth s).1 hs
        exact ⟨h1, by simp [h2]⟩
    · intro s hs
      cases h : (g.node s).final with
      | true => exact onAgenda_add.2 (.inr (onAgenda_add.2 (.inl (by simp [h]))))
      | false => exact onAgenda_add.2 (.inl (by simp [h]))
    · simp only [length_addAgenda, List.length_nil, List.length_cons]
      omega

/-! ## Building the result -/

theorem old_new {r k i : Nat} (hr : r < k) (hi : i < k) : newIndex r i < k ∧ oldGroup r (newIndex r i) = i := by
  unfold newIndex oldGroup
  by_cases h1 : i = r
  · simp [h1]; omega
  · by_cases h2 : i < r
    · rw [if_neg h1, if_pos h2, if_neg (by omega), if_pos (by omega)]; omega
    · rw [if_neg h1, if_neg h2, if_neg (by omega), if_neg (by omega)]; omega

theorem new_old {r k j : Nat} (hr : r < k) (hj : j < k) : oldGroup r j < k ∧ newIndex r (oldGroup r j) = j := by
  unfold newIndex oldGroup
  by_cases h1 : j = 0
  · simp [h1]; omega
  · by_cases h2 : j ≤ r
    · rw [if_neg h1, if_pos h2, if_neg (by omega), if_pos (by omega)]; omega
    · rw [if_neg h1, if_neg h2, if_neg (by omega), if_neg (by omega)]; omega

theorem build_ok {g : Graph} {V : List Nat} (hV : HNodes g V) (h0 : 0 ∈ V) (ha : ∀ n ∈ V, ∃ w, g.Takes n w)
    {H : Hop} (hH : HGood V H) (hs : ∀ p ∈ V, ∀ q ∈ V, (H.groupOf p = H.groupOf q ↔ Same g p q)) :
    (H.build g).Closed ∧ (H.build g).Minimal ∧ ∀ w, (H.build g).Takes 0 w ↔ g.Takes 0 w := by
  have hlt : ∀ s ∈ V, H.groupOf s < H.groups.length := by
    intro s hs
    obtain ⟨G, hG, _⟩ := hH.mem s hs
    by_cases h : H.groupOf s < H.groups.length
    · exact h
    · rw [List.getElem?_eq_none (by omega)] at hG; cases hG
  have hr := hlt 0 h0
  -- the node made for a group
  have hnode : ∀ j, j < H.groups.length → ∃ s ∈ V, newIndex (H.groupOf 0) (H.groupOf s) = j ∧
      (H.build g).node j = ⟨((g.node s).iter.map
        (fun a => (a.1, newIndex (H.groupOf 0) (H.groupOf a.2)))).reverse, (g.node s).final⟩ := by
    intro j hj
    obtain ⟨h1, h2⟩ := new_old hr hj
    have hG := List.getElem?_eq_getElem h1
    have hfull := hH.full _ _ hG
    cases hst : H.groups[oldGroup (H.groupOf 0) j].states with
    | nil => exact absurd hst hfull
    | cons s ss =>
      obtain ⟨h3, h4⟩ := hH.only _ _ s hG (by rw [hst]; exact List.mem_cons_self ..)
      refine ⟨s, h3, by rw [h4]; exact h2, ?_⟩
      unfold Hop.build
      dsimp only
      rw [hG]
      dsimp only
      rw [hst]
  have hstep : ∀ {j : Nat} {s : Nat}, (H.build g).node j = ⟨((g.node s).iter.map
        (fun a => (a.1, newIndex (H.groupOf 0) (H.groupOf a.2)))).reverse, (g.node s).final⟩ →
      ∀ l m, (H.build g).Step j l m ↔ ∃ t, g.Step s l t ∧ m = newIndex (H.groupOf 0) (H.groupOf t) := by
    intro j s hj l m
    unfold Graph.Step
    rw [hj]
    dsimp only
    rw [List.mem_reverse, List.mem_map]
    constructor
    · rintro ⟨a, ha, he⟩
      cases he
      exact ⟨a.2, mem_iter.1 ha, rfl⟩
    · rintro ⟨t, ht, rfl⟩
      exact ⟨(l, t), mem_iter.2 ht, rfl⟩
  -- what is accepted
  have htakes : ∀ w, ∀ s ∈ V, (H.build g).Takes (newIndex (H.groupOf 0) (H.groupOf s)) w ↔ g.Takes s w := by
    intro w
    induction w with
    | nil =>
      intro s hsV
      obtain ⟨s0, h1, h2, h3⟩ := hnode _ (old_new hr (hlt s hsV)).1
      have hg0 : H.groupOf s0 = H.groupOf s := by
        have := congrArg (oldGroup (H.groupOf 0)) h2
        rwa [(old_new hr (hlt s0 h1)).2, (old_new hr (hlt s hsV)).2] at this
      rw [← (hs s0 h1 s hsV).1 hg0 [], takes_noeps (hV.noeps s0 h1), takes_noeps (by
        intro a hm
        obtain ⟨t, ht, _⟩ := (hstep h3 a.1 a.2).1 hm
        exact hV.noeps s0 h1 (a.1, t) ht), h3]
      constructor
      · rintro (h | ⟨_, _, _, h, _⟩)
        · exact .inl h
        · cases h
      · rintro (h | ⟨_, _, _, h, _⟩)
        · exact .inl h
        · cases h
    | cons l v ih =>
      intro s hsV
      obtain ⟨s0, h1, h2, h3⟩ := hnode _ (old_new hr (hlt s hsV)).1
      have hg0 : H.groupOf s0 = H.groupOf s := by
        have := congrArg (oldGroup (H.groupOf 0)) h2
        rwa [(old_new hr (hlt s0 h1)).2, (old_new hr (hlt s hsV)).2] at this
      rw [← (hs s0 h1 s hsV).1 hg0 (l :: v), takes_noeps (hV.noeps s0 h1), takes_noeps (by
        intro a hm
        obtain ⟨t, ht, _⟩ := (hstep h3 a.1 a.2).1 hm
        exact hV.noeps s0 h1 (a.1, t) ht)]
      constructor
      · rintro (⟨h, _⟩ | ⟨l', v', m, he, hst, ht⟩)
        · cases h
        · cases he
          obtain ⟨t, h4, rfl⟩ := (hstep h3 _ _).1 hst
          exact .inr ⟨l, v, t, rfl, h4, (ih t (hV.closed s0 h1 _ h4)).1 ht⟩
      · rintro (⟨h, _⟩ | ⟨l', v', t, he, hst, ht⟩)
        · cases h
        · cases he
          exact .inr ⟨l, v, _, rfl, (hstep h3 _ _).2 ⟨t, hst, rfl⟩, (ih t (hV.closed s0 h1 _ hst)).2 ht⟩
  have hclosed : (H.build g).Closed := by
    refine ⟨Nat.lt_of_le_of_lt (Nat.zero_le _) hr, fun j hj a hm => ?_⟩
    obtain ⟨s, h1, _, h3⟩ := hnode j hj
    obtain ⟨t, ht, he⟩ := (hstep h3 a.1 a.2).1 hm
    rw [he]
    exact (old_new hr (hlt t (hV.closed s h1 _ ht))).1
  refine ⟨hclosed, ⟨?_, ?_, ?_⟩, fun w => ?_⟩
  · intro n hn
    obtain ⟨s, h1, _, h3⟩ := hnode n (hclosed.reach hn hclosed.1)
    refine ⟨fun a hm => ?_, ?_⟩
    · obtain ⟨t, ht, _⟩ := (hstep h3 a.1 a.2).1 hm
      exact hV.noeps s h1 (a.1, t) ht
    · rw [h3]
      dsimp only
      rw [List.map_reverse, List.map_map]
      unfold List.Nodup
      rw [List.pairwise_reverse]
      have hl : ((g.node s).iter.map (fun a => a.1)).Pairwise (fun a b => a ≠ b) := by
        have hp := List.pairwise_map.1 (hV.labels s h1)
        rw [List.pairwise_map]
        unfold Node.iter Node.epsArcs Node.otherArcs
        refine List.pairwise_append.2 ⟨hp.filter _, hp.filter _, fun a ha b hb e => ?_⟩
        have h1 := (List.mem_filter.1 ha).2
        have h2 := (List.mem_filter.1 hb).2
        rw [e] at h1
        rw [h1] at h2
        cases h2
      have : (g.node s).iter.map ((fun a => a.1) ∘ fun a => (a.1, newIndex (H.groupOf 0) (H.groupOf a.2))) =
          (g.node s).iter.map (fun a => a.1) := List.map_congr_left (fun _ _ => rfl)
      rw [this]
      exact hl.imp (fun h => h.symm)
  · intro n m hn hm he
    obtain ⟨s, h1, h2, _⟩ := hnode n (hclosed.reach hn hclosed.1)
    obtain ⟨t, h3, h4, _⟩ := hnode m (hclosed.reach hm hclosed.1)
    rw [← h2, ← h4]
    congr 1
    refine (hs s h1 t h3).2 (fun w => ?_)
    rw [← htakes w s h1, ← htakes w t h3, h2, h4]
    exact he w
  · intro n' l n hn' hst
    obtain ⟨s, h1, h2, _⟩ := hnode n (hclosed.2 n' (hclosed.reach hn' hclosed.1) _ hst)
    obtain ⟨w, hw⟩ := ha s h1
    exact ⟨w, by rw [← h2]; exact (htakes w s h1).2 hw⟩
  · have := htakes w 0 h0
    have hz : newIndex (H.groupOf 0) (H.groupOf 0) = 0 := by unfold newIndex; rw [if_pos rfl]
    rwa [hz] at this

/-! ## Determinising a reversed transducer leaves no useless nodes -/

theorem trim_keys {g h : Graph} {map : Nat → Option Nat} (H : IsReverse g h map) {k k' : NodeArray} {l : Label}
    (hk : ∃ R, IsArray h k R) (hs : (l, k') ∈ computeTransitions h k) :
    ∃ w, KTakes (computeTransitions h) (fun k => k.final) k' w := by
  obtain ⟨R, hR⟩ := hk
  obtain ⟨hl, ⟨r, n, m, h1, h2, h3⟩, h4⟩ := (mem_transitions H.closed hR).1 _ hs
  obtain ⟨t, ht, _⟩ := (H.arcs n l m).1 h3
  have hreach : g.Reach 0 t := (H.dom t).1 (by rw [ht]; exact fun h => by cases h)
  obtain ⟨w, hw⟩ := hreach.path
  refine ⟨w.reverse, (array_takes H.closed _ h4).2 ⟨m, ⟨r, n, h1, h2, h3⟩, ?_⟩⟩
  rw [H.takes_at ht, List.reverse_reverse]
  exact hw

/-- Two keys that accept the same are the same, if the reversed transducer is deterministic. -/
theorem path_det {g : Graph} (hd : g.Deterministic) {n t : Nat} {w : List Label} (h : g.Path n w t) :
    g.Reach 0 n → ∀ {t'}, g.Path n w t' → t = t' := by
  induction h with
  | nil =>
    intro hr t' h'
    cases h' with
    | nil => rfl
    | skip hs _ => exact absurd rfl ((hd _ hr).1 _ hs)
  | skip hs _ _ => exact fun hr => absurd rfl ((hd _ hr).1 _ hs)
  | @read n m p l w hl hs _ ih =>
    intro hr t' h'
    cases h' with
    | skip hs' _ => exact absurd rfl ((hd _ hr).1 _ hs')
    | @read _ m' _ _ _ _ hs' hp =>
      have hmm : m = m' := by
        have hp := List.pairwise_map.1 (hd _ hr).2
        unfold Graph.Step at hs hs'
        generalize (g.node n).arcs = as at hp hs hs'
        induction as with
        | nil => cases hs
        | cons a as iha =>
          obtain ⟨h3, h4⟩ := List.pairwise_cons.1 hp
          rcases List.mem_cons.1 hs with rfl | h1'
          · rcases List.mem_cons.1 hs' with h2' | h2'
            · cases h2'; rfl
            · exact absurd rfl (h3 (l, m') h2')
          · rcases List.mem_cons.1 hs' with rfl | h2'
            · exact absurd rfl (h3 (l, m) h1')
            · exact iha h4 h1' h2'
      subst hmm
      exact ih (hr.trans (.step hs .refl)) hp

theorem takes_of_eps {h : Graph} {r n : Nat} (he : h.EpsReach r n) {w : List Label} (ht : h.Takes n w) :
    h.Takes r w := by
  induction he with
  | refl => exact ht
  | step hs _ ih => exact .skip hs (ih ht)

theorem keys_distinct {g h : Graph} {map : Nat → Option Nat} (H : IsReverse g h map) (hd : g.Deterministic)
    {k k' : NodeArray} {R R' : Nat → Prop} (hk : IsArray h k R) (hk' : IsArray h k' R')
    (he : ∀ w, KTakes (computeTransitions h) (fun k => k.final) k w ↔
      KTakes (computeTransitions h) (fun k => k.final) k' w) : k = k' := by
  have h0 : ∀ t, map t ≠ some 0 := fun t ht => absurd (H.low t 0 ht).1 (Nat.lt_irrefl _)
  have hsub : ∀ {k k' : NodeArray} {R R' : Nat → Prop}, IsArray h k R → IsArray h k' R' →
      (∀ w, KTakes (computeTransitions h) (fun k => k.final) k w →
        KTakes (computeTransitions h) (fun k => k.final) k' w) → ∀ n ∈ k.nodes, n ∈ k'.nodes := by
    intro k k' R R' hk hk' he n hn
    have hkt := hk
    have hkt' := hk'
    obtain ⟨ns, hc, rfl⟩ := hk
    obtain ⟨ns', hc', rfl⟩ := hk'
    obtain ⟨hn1, hn2⟩ := List.mem_filter.1 hn
    refine List.mem_filter.2 ⟨?_, hn2⟩
    have hnz : 0 < n := by
      rcases Nat.eq_zero_or_pos n with rfl | h
      · exfalso
        cases ho : (h.node 0).otherArcs with
        | nil => rw [ho] at hn2; cases hn2
        | cons a as =>
          have ha : a ∈ (h.node 0).otherArcs := by rw [ho]; exact List.mem_cons_self ..
          obtain ⟨ha1, ha2⟩ := mem_otherArcs.1 ha
          obtain ⟨q, _, ⟨_, hl, _⟩ | ⟨t, _, ht⟩⟩ := (H.arcs 0 a.1 a.2).1 ha1
          · exact ha2 hl
          · exact h0 t ht
      · exact h
    obtain ⟨t, ht⟩ := H.onto n hnz (hc.low n hn1)
    obtain ⟨w, hw⟩ := ((H.dom t).1 (by rw [ht]; exact fun h => by cases h)).path
    have htn : h.Takes n w.reverse := (H.takes_at ht _).2 (by rw [List.reverse_reverse]; exact hw)
    obtain ⟨r, hr, hrn⟩ := (hc.mem n).1 hn1
    obtain ⟨r', hr', htr'⟩ := (array_takes H.closed _ hkt').1 (he _ ((array_takes H.closed _ hkt).2
      ⟨r, hr, takes_of_eps hrn htn⟩))
    have hsame : ∀ {t' n'}, map t' = some n' → h.Takes n' w.reverse → n' = n := by
      intro t' n' ht' htk
      have h1 := (H.takes_at ht' _).1 htk
      rw [List.reverse_reverse] at h1
      have := path_det hd hw .refl h1
      subst this
      rw [ht] at ht'
      cases ht'
      rfl
    have hr'lt : r' < h.size := hc'.low r' ((hc'.mem r').2 ⟨r', hr', .refl⟩)
    rcases Nat.eq_zero_or_pos r' with hz | hz
    · subst hz
      rw [hc'.mem]
      refine ⟨0, hr', ?_⟩
      generalize w.reverse = v at htr' hsame
      cases htr' with
      | stop hf => exact absurd ((H.fin 0).1 hf) (h0 0)
      | @skip _ m _ hs htm =>
        obtain ⟨q, hq, _⟩ := (H.arcs 0 _ m).1 hs
        rw [hsame hq htm] at hs
        exact .step hs .refl
      | @read _ m _ _ hl hs _ =>
        obtain ⟨q, _, ⟨_, hl', _⟩ | ⟨t', _, ht'⟩⟩ := (H.arcs 0 _ m).1 hs
        · exact absurd hl' hl
        · exact absurd ht' (h0 t')
    · obtain ⟨t', ht'⟩ := H.onto r' hz hr'lt
      have := hsame ht' htr'
      subst this
      exact (hc'.mem _).2 ⟨_, hr', .refl⟩
  have hfin : k.final = k'.final := by
    have h1 := he []
    rw [kTakes_cases (fun c hc => ((mem_transitions H.closed hk).1 c hc).1),
      kTakes_cases (fun c hc => ((mem_transitions H.closed hk').1 c hc).1)] at h1
    have h2 : k.final = true ↔ k'.final = true := by
      constructor
      · intro h
        rcases h1.1 (.inl ⟨rfl, h⟩) with h | ⟨_, _, _, h, _⟩
        · exact h.2
        · cases h
      · intro h
        rcases h1.2 (.inl ⟨rfl, h⟩) with h | ⟨_, _, _, h, _⟩
        · exact h.2
        · cases h
    cases hkf : k.final <;> cases hkf' : k'.final <;> simp [hkf, hkf'] at h2 ⊢
  have hnodes : k.nodes = k'.nodes := by
    have h1 := hsub hk hk' (fun w => (he w).1)
    have h2 := hsub hk' hk (fun w => (he w).2)
    obtain ⟨ns, hc, rfl⟩ := hk
    obtain ⟨ns', hc', rfl⟩ := hk'
    exact sorted_ext (hc.sorted.filter _) (hc'.sorted.filter _) (fun j => ⟨h1 j, h2 j⟩)
  cases k
  cases k'
  simp only at hfin hnodes
  rw [hfin, hnodes]

end Hfst.Sfst
