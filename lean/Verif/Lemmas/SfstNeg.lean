import Verif.Lemmas.SfstCmp

/-!
# The complement
-/

namespace Hfst.Sfst

theorem target_none {nd : Node} {l : Label} (hl : l ≠ ⟨0, 0⟩) :
    (nd.target l).isNone = true ↔ ∀ t, (l, t) ∉ nd.arcs := by
  unfold Node.target
  rw [Option.isNone_map, Option.isNone_iff_eq_none, List.find?_eq_none]
  constructor
  · intro h t ht
    exact h (l, t) (mem_otherArcs.2 ⟨ht, hl⟩) (by simp)
  · intro h a ha he
    simp at he
    subst he
    exact h a.2 (mem_otherArcs.1 ha).1

theorem addMissing_final (acc : Nat) (ps : List Label) (nd : Node) : (addMissing acc ps nd).final = nd.final := by
  unfold addMissing
  induction ps generalizing nd with
  | nil => rfl
  | cons l ps ih =>
    rw [List.foldl_cons, ih]
    split <;> rfl

theorem mem_addMissing {acc : Nat} {ps : List Label} (hps : ∀ l ∈ ps, l ≠ ⟨0, 0⟩) {nd : Node} {l : Label} {t : Nat} :
    (l, t) ∈ (addMissing acc ps nd).arcs ↔
      (l, t) ∈ nd.arcs ∨ (t = acc ∧ l ∈ ps ∧ ∀ t', (l, t') ∉ nd.arcs) := by
  unfold addMissing
  induction ps generalizing nd with
  | nil => simp
  | cons x ps ih =>
    rw [List.foldl_cons, ih (fun l hl => hps l (List.mem_cons_of_mem _ hl))]
    have hx := hps x (List.mem_cons_self ..)
    split
    · next hn =>
      have hn := (target_none hx).1 hn
      constructor
      · rintro (h | ⟨h1, h2, h3⟩)
        · rcases List.mem_cons.1 h with h | h
          · cases h
            exact .inr ⟨rfl, List.mem_cons_self .., hn⟩
          · exact .inl h
        · exact .inr ⟨h1, List.mem_cons_of_mem _ h2, fun t' ht' => h3 t' (List.mem_cons_of_mem _ ht')⟩
      · rintro (h | ⟨rfl, h2, h3⟩)
        · exact .inl (List.mem_cons_of_mem _ h)
        · by_cases he : l = x
          · subst he
            exact .inl (List.mem_cons_self ..)
          · refine .inr ⟨rfl, (List.mem_cons.1 h2).resolve_left he, fun t' ht' => ?_⟩
            rcases List.mem_cons.1 ht' with h | h
            · cases h; exact he rfl
            · exact h3 t' h
    · next hn =>
      have hn : ∃ t', (x, t') ∈ nd.arcs := Classical.byContradiction fun h =>
        hn ((target_none hx).2 fun t ht => h ⟨t, ht⟩)
      constructor
      · rintro (h | ⟨h1, h2, h3⟩)
        · exact .inl h
        · exact .inr ⟨h1, List.mem_cons_of_mem _ h2, h3⟩
      · rintro (h | ⟨rfl, h2, h3⟩)
        · exact .inl h
        · rcases List.mem_cons.1 h2 with rfl | h2
          · obtain ⟨t', ht'⟩ := hn
            exact absurd ht' (h3 t')
          · exact .inr ⟨rfl, h2, h3⟩

theorem addLoops {acc : Nat} (ls : List Label) : ∀ (g : Graph),
    (ls.foldl (fun g l => g.addArc acc l acc) g).size = g.size ∧
    (∀ j, j ≠ acc → (ls.foldl (fun g l => g.addArc acc l acc) g).node j = g.node j) ∧
    ((ls.foldl (fun g l => g.addArc acc l acc) g).node acc).final = (g.node acc).final ∧
    ∀ a, a ∈ ((ls.foldl (fun g l => g.addArc acc l acc) g).node acc).arcs ↔
      a ∈ (g.node acc).arcs ∨ (a.2 = acc ∧ a.1 ∈ ls) := by
  induction ls with
  | nil => intro g; exact ⟨rfl, fun _ _ => rfl, rfl, fun a => by simp⟩
  | cons l ls ih =>
    intro g
    obtain ⟨h1, h2, h3, h4⟩ := ih (g.addArc acc l acc)
    rw [List.foldl_cons]
    refine ⟨h1, fun j hj => (h2 j hj).trans ?_, h3.trans ?_, fun a => (h4 a).trans ?_⟩
    · show (if j = acc then _ else _) = _
      rw [if_neg hj]
    · show (if acc = acc then _ else _ : Node).final = _
      rw [if_pos rfl]
    · have : ((g.addArc acc l acc).node acc).arcs = (l, acc) :: (g.node acc).arcs := by
        show (if acc = acc then _ else _ : Node).arcs = _
        rw [if_pos rfl]
      rw [this, List.mem_cons, List.mem_cons]
      constructor
      · rintro ((rfl | h) | ⟨h1, h2⟩)
        · exact .inr ⟨rfl, .inl rfl⟩
        · exact .inl h
        · exact .inr ⟨h1, .inr h2⟩
      · rintro (h | ⟨h1, h2 | h2⟩)
        · exact .inl (.inr h)
        · exact .inl (.inl (Prod.ext h2 h1))
        · exact .inr ⟨h1, h2⟩

/-- What the complement looks like: `N` is the minimal transducer, `R` the result. -/
structure IsNegation (N R : Graph) (qs ps : List Label) : Prop where
  closed : R.Closed
  accept_final : (R.node N.size).final = true
  accept_arcs : ∀ l t, R.Step N.size l t ↔ t = N.size ∧ l ∈ qs
  final : ∀ n, N.Reach 0 n → (R.node n).final = !(N.node n).final
  arcs : ∀ n, N.Reach 0 n → ∀ l t, R.Step n l t ↔
    N.Step n l t ∨ (t = N.size ∧ l ∈ ps ∧ ∀ t', ¬ N.Step n l t')

theorem negate_shape {N : Graph} (hN : N.Closed) {qs ps : List Label} (hps : ∀ l ∈ ps, l ≠ ⟨0, 0⟩) :
    ∃ s, visit (fun _ nd => { nd with final := !nd.final }) (fun _ nd => addMissing N.size ps nd)
        ((qs.foldl (fun g l => g.addArc N.size l N.size) (N.newNode.setFinal N.size true)).size + 1) 0
        ([], qs.foldl (fun g l => g.addArc N.size l N.size) (N.newNode.setFinal N.size true)) = some s ∧
      IsNegation N s.2 qs ps := by
  obtain ⟨l1, l2, l3, l4⟩ := addLoops (acc := N.size) qs (N.newNode.setFinal N.size true)
  generalize qs.foldl (fun g l => g.addArc N.size l N.size) (N.newNode.setFinal N.size true) = g at l1 l2 l3 l4
  have hsize : g.size = N.size + 1 := l1
  have hold : ∀ j, j < N.size → g.node j = N.node j := by
    intro j hj
    rw [l2 j (Nat.ne_of_lt hj)]
    show (if j = N.size then _ else (if j = N.size then _ else _)) = _
    rw [if_neg (Nat.ne_of_lt hj), if_neg (Nat.ne_of_lt hj)]
  have hnew : (N.newNode.setFinal N.size true).node N.size = ⟨[], true⟩ := by
    show (if N.size = N.size then { (if N.size = N.size then Node.init else _ : Node) with final := true } else _) = _
    rw [if_pos rfl, if_pos rfl]
    rfl
  have hacc : ∀ l t, g.Step N.size l t ↔ t = N.size ∧ l ∈ qs := by
    intro l t
    refine (l4 (l, t)).trans ?_
    rw [hnew]
    constructor
    · rintro (h | h)
      · cases h
      · exact h
    · exact .inr
  have hgc : ∀ j, j < g.size → ∀ a ∈ (g.node j).arcs, a.2 < g.size := by
    intro j hj a ha
    rw [hsize] at hj ⊢
    rcases Nat.lt_succ_iff_lt_or_eq.1 hj with h | rfl
    · rw [hold j h] at ha
      exact Nat.lt_succ_of_lt (hN.2 j h a ha)
    · rw [((hacc a.1 a.2).1 ha).1]
      exact Nat.lt_succ_self _
  obtain ⟨V, g', hv, hs, hV, hin, hout⟩ := visit_all (g := g)
    (pre := fun _ nd => { nd with final := !nd.final }) (post := fun _ nd => addMissing N.size ps nd)
    (n := 0) (fun j hj a ha => hgc j hj a ha) (by rw [hsize]; exact Nat.succ_pos _)
  have hreach : ∀ j, j ∈ V ↔ N.Reach 0 j := by
    intro j
    rw [hV]
    have h1 : ∀ {a b : Nat}, ListReach (fun j => (g.node j).arcs) a b → a < N.size → N.Reach a b := by
      intro a b h
      induction h with
      | refl => exact fun _ => .refl
      | @step n p c hc _ ih =>
        intro hn
        have hc : c ∈ (g.node n).arcs := hc
        rw [hold n hn] at hc
        exact .step (l := c.1) hc (ih (hN.2 n hn c hc))
    have h2 : ∀ {a b : Nat}, N.Reach a b → a < N.size → ListReach (fun j => (g.node j).arcs) a b := by
      intro a b h
      induction h with
      | refl => exact fun _ => .refl
      | @step n m p l hs _ ih =>
        intro hn
        refine .step (a := (l, m)) ?_ (ih (hN.2 n hn _ hs))
        show (l, m) ∈ (g.node n).arcs
        rw [hold n hn]
        exact hs
    exact ⟨fun h => h1 h hN.1, fun h => h2 h hN.1⟩
  have hnode : ∀ n, N.Reach 0 n → g'.node n = addMissing N.size ps { N.node n with final := !(N.node n).final } := by
    intro n hn
    rw [hin n ((hreach n).2 hn), hold n (hN.reach hn hN.1)]
  have hnotacc : N.size ∉ V := fun h => absurd (hN.reach ((hreach _).1 h) hN.1) (Nat.lt_irrefl _)
  have harcs : ∀ n, N.Reach 0 n → ∀ l t, g'.Step n l t ↔
      N.Step n l t ∨ (t = N.size ∧ l ∈ ps ∧ ∀ t', ¬ N.Step n l t') := by
    intro n hn l t
    unfold Graph.Step
    rw [hnode n hn, mem_addMissing hps]
  refine ⟨_, hv, ⟨⟨by show 0 < g'.size; rw [hs, hsize]; exact Nat.succ_pos _, fun j hj a ha => ?_⟩, ?_, ?_, ?_, harcs⟩⟩
  · show a.2 < g'.size
    change j < g'.size at hj
    change a ∈ (g'.node j).arcs at ha
    rw [hs] at hj ⊢
    by_cases hjV : j ∈ V
    · have hr := (hreach j).1 hjV
      rcases (harcs j hr a.1 a.2).1 ha with h | ⟨h, _⟩
      · rw [hsize]
        exact Nat.lt_succ_of_lt (hN.2 j (hN.reach hr hN.1) _ h)
      · rw [h, hsize]
        exact Nat.lt_succ_self _
    · rw [hout j hjV] at ha
      exact hgc j hj a ha
  · show (g'.node N.size).final = true
    rw [hout _ hnotacc, l3, hnew]
  · intro l t
    show (l, t) ∈ (g'.node N.size).arcs ↔ _
    rw [hout _ hnotacc]
    exact hacc l t
  · intro n hn
    show (g'.node n).final = _
    rw [hnode n hn, addMissing_final]

theorem IsNegation.accept {N R : Graph} {qs ps : List Label} (H : IsNegation N R qs ps) {w : List Label}
    (hw : ∀ l ∈ w, l ∈ qs ∧ l ≠ ⟨0, 0⟩) : R.Takes N.size w := by
  induction w with
  | nil => exact .stop H.accept_final
  | cons l w ih =>
    have hl := hw l (List.mem_cons_self ..)
    exact .read hl.2 ((H.accept_arcs l _).2 ⟨rfl, hl.1⟩) (ih (fun x hx => hw x (List.mem_cons_of_mem _ hx)))

theorem IsNegation.takes {N R : Graph} {qs ps : List Label} (H : IsNegation N R qs ps) (hd : N.Deterministic)
    (hps : ∀ l ∈ ps, l ≠ ⟨0, 0⟩) (hq : ∀ l ∈ qs, l ≠ ⟨0, 0⟩ → l ∈ ps) (w : List Label) : ∀ {n : Nat}, N.Reach 0 n →
      (∀ l ∈ w, l ∈ qs ∧ l ≠ ⟨0, 0⟩) → (R.Takes n w ↔ ¬ N.Takes n w) := by
  induction w with
  | nil =>
    intro n hn _
    have hne : ∀ a ∈ (R.node n).arcs, a.1 ≠ ⟨0, 0⟩ := by
      intro a ha
      rcases (H.arcs n hn a.1 a.2).1 ha with h | ⟨_, h, _⟩
      · exact (hd n hn).1 (a.1, a.2) h
      · exact hps _ h
    rw [takes_noeps hne, takes_noeps (hd n hn).1, H.final n hn]
    constructor
    · rintro (⟨_, h⟩ | ⟨_, _, _, h, _⟩)
      · rintro (⟨_, h'⟩ | ⟨_, _, _, h', _⟩)
        · rw [h'] at h; cases h
        · cases h'
      · cases h
    · intro h
      refine .inl ⟨rfl, ?_⟩
      cases hf : (N.node n).final with
      | false => rfl
      | true => exact absurd (.inl ⟨rfl, hf⟩) h
  | cons l v ih =>
    intro n hn hw
    have hne : ∀ a ∈ (R.node n).arcs, a.1 ≠ ⟨0, 0⟩ := by
      intro a ha
      rcases (H.arcs n hn a.1 a.2).1 ha with h | ⟨_, h, _⟩
      · exact (hd n hn).1 (a.1, a.2) h
      · exact hps _ h
    have hl := hw l (List.mem_cons_self ..)
    have hv : ∀ x ∈ v, x ∈ qs ∧ x ≠ ⟨0, 0⟩ := fun x hx => hw x (List.mem_cons_of_mem _ hx)
    by_cases hex : ∃ t, N.Step n l t
    · obtain ⟨t, ht⟩ := hex
      rw [takes_arc (hd n hn).1 (hd n hn).2 ht, ← ih (hn.trans (.step ht .refl)) hv, takes_noeps hne]
      constructor
      · rintro (⟨h, _⟩ | ⟨l', v', t', he, hs, h⟩)
        · cases h
        · cases he
          rcases (H.arcs n hn l t').1 hs with h' | ⟨_, _, h'⟩
          · rw [step_unique (hd n hn).2 ht h']; exact h
          · exact absurd ht (h' t)
      · exact fun h => .inr ⟨l, v, t, rfl, (H.arcs n hn l t).2 (.inl ht), h⟩
    · constructor
      · intro _ h
        rcases (takes_noeps (hd n hn).1).1 h with ⟨h, _⟩ | ⟨l', v', t', he, hs, _⟩
        · cases h
        · cases he
          exact hex ⟨t', hs⟩
      · intro _
        exact .read hl.2 ((H.arcs n hn l N.size).2 (.inr ⟨rfl, hq l hl.1 hl.2, fun t' ht' => hex ⟨t', ht'⟩⟩))
          (H.accept hv)

/-- Nothing with other pairs is accepted. -/
theorem IsNegation.over {N R : Graph} {qs ps : List Label} (H : IsNegation N R qs ps)
    (hN : ∀ n l t, N.Reach 0 n → N.Step n l t → l ∈ qs) (hps : ∀ l ∈ ps, l ∈ qs) {n : Nat} {w : List Label}
    (h : R.Takes n w) : N.Reach 0 n ∨ n = N.size → ∀ l ∈ w, l ∈ qs := by
  have hstep : ∀ {n : Nat} {l : Label} {t : Nat}, R.Step n l t → N.Reach 0 n ∨ n = N.size →
      l ∈ qs ∧ (N.Reach 0 t ∨ t = N.size) := by
    intro n l t hs hn
    rcases hn with hn | rfl
    · rcases (H.arcs n hn l t).1 hs with h | ⟨h, h', _⟩
      · exact ⟨hN n l t hn h, .inl (hn.trans (.step h .refl))⟩
      · exact ⟨hps l h', .inr h⟩
    · obtain ⟨h, h'⟩ := (H.accept_arcs l t).1 hs
      exact ⟨h', .inr h⟩
  induction h with
  | stop => intro _ l hl; cases hl
  | skip hs _ ih => exact fun hn => ih (hstep hs hn).2
  | read _ hs _ ih =>
    intro hn l hl
    rcases List.mem_cons.1 hl with rfl | hl
    · exact (hstep hs hn).1
    · exact ih (hstep hs hn).2 l hl

end Hfst.Sfst
