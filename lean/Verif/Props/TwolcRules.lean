import Verif.Props.TwolcVars

/-!
# C89: the theorems
-/
namespace Hfst.Twolc
open Hfst.Basic (Outcome)

/-! ## The loop -/

theorem writeAll_ok {τ : Type} (symbols : List Str) (stop : RuleIt) (st : τ → RuleIt) (raw : τ → ConstIt (ConstIt ValueIt) × ConstIt MatchedIt ×
      ConstIt MixedIt) (F M X : List Block) (start : ConstIt (ConstIt ValueIt) × ConstIt MatchedIt × ConstIt MixedIt)
    (hraw : ∀ t, st t = ruleIt F M X (raw t).1 (raw t).2.1 (raw t).2.2) (hstop : stop = ruleIt F M X (eF F) (eM M) (eX X))
    (hse : stop.eq stop = true) (ps vals : τ → Assigned) (N : List Str)
    (T : List τ) (hw : Wheel (step3 F M X) start (T.map raw)) (hne : ∀ t ∈ T, (st t).eq stop = false)
    (hset : ∀ t ∈ T, ∀ m, (st t).set m = .ok (putAll m (ps t)))
    (hp : ∀ t ∈ T, (ps t).Perm (vals t)) (hn : ∀ t ∈ T, ((vals t).map (·.1)) = N) (hN : N.Nodup)
    (n : Nat) (hlen : T.length < n) (m : Assigned) (hm : InKeyOrder m) (hmN : ∀ e ∈ m, e.1 ∈ N) (out : Str) :
    ∃ t0, T.head? = some t0 ∧ ∃ m' lines, writeAll symbols stop n (st t0) m out = .ok (m', out ++ lines.flatten) ∧
      List.Forall₂ (fun t line => WrittenRule symbols (vals t) line) T lines := by
  induction T generalizing n m out with
  | nil => exact hw.elim
  | cons t T ih =>
    refine ⟨t, rfl, ?_⟩
    obtain ⟨n, rfl⟩ : ∃ k, n = k + 1 := ⟨n - 1, by simp at hlen; omega⟩
    have hk : ((ps t).map (·.1)).Perm N := by rw [← hn t (by simp)]; exact (hp t (by simp)).map _
    have hkn : ((ps t).map (·.1)).Nodup := hk.nodup_iff.2 hN
    have ho := putAll_order (ps t) m hm
    have hmem : ∀ e, e ∈ putAll m (ps t) ↔ e ∈ ps t := by
      intro e
      rw [mem_putAll _ _ hm hkn]
      refine ⟨fun h => h.elim id fun h => absurd (hk.mem_iff.2 (hmN e h.2)) h.1, .inl⟩
    have hperm : (putAll m (ps t)).Perm (vals t) :=
      ((List.perm_ext_iff_of_nodup (order_nodup _ ho) hkn.of_map).2 hmem).trans (hp t (by simp))
    have hline := replaceVariables_spec _ _ ho hperm symbols
    have hNm : ∀ e ∈ putAll m (ps t), e.1 ∈ N := fun e he => hk.mem_iff.1 (List.mem_map.2 ⟨e, (hmem e).1 he, rfl⟩)
    have h0 : writeAll symbols stop (n + 1) (st t) m out =
        (st t).next.bind fun it' => writeAll symbols stop n it' (putAll m (ps t)) (out ++ replaceVariables (putAll m (ps t)) symbols) := by
      rw [writeAll, hne t (by simp), hset t (by simp)]
      rfl
    rw [h0]
    cases T with
    | nil =>
      have : (st t).next = .ok stop := by rw [hraw, hstop, ruleIt_next F M X _ _ _ hw]; rfl
      obtain ⟨n, rfl⟩ : ∃ k, n = k + 1 := ⟨n - 1, by simp at hlen; omega⟩
      refine ⟨putAll m (ps t), [replaceVariables (putAll m (ps t)) symbols], ?_, .cons hline .nil⟩
      rw [this, ok_bind, writeAll, hse]
      simp
    | cons u T =>
      have h1 : (st t).next = .ok (st u) := by rw [hraw, hraw, ruleIt_next F M X _ _ _ hw.1]; rfl
      obtain ⟨t0, h2, m', lines, h3, h4⟩ := ih hw.2 (fun t ht => hne t (List.mem_cons_of_mem _ ht)) (fun t ht => hset t (List.mem_cons_of_mem _ ht))
        (fun t ht => hp t (List.mem_cons_of_mem _ ht)) (fun t ht => hn t (List.mem_cons_of_mem _ ht)) n (by simp at hlen ⊢; omega)
        (putAll m (ps t)) ho hNm (out ++ replaceVariables (putAll m (ps t)) symbols)
      simp only [List.head?_cons, Option.some.injEq] at h2
      subst h2
      refine ⟨m', replaceVariables (putAll m (ps t)) symbols :: lines, ?_, .cons hline h4⟩
      rw [h1, ok_bind, h3]
      simp

/-! ## The positions gone through are the choices -/

theorem forall₂_mem {α β : Type} (bs : List α) (L : α → List β) (c : List β) (R : α → β → Prop) (h : ∀ b ∈ bs, ∀ x, x ∈ L b ↔ R b x) :
    c ∈ combos (bs.map L) ↔ List.Forall₂ R bs c := by
  rw [mem_combos, List.forall₂_map_left_iff]
  induction bs generalizing c with
  | nil => cases c <;> simp
  | cons b bs ih =>
    cases c with
    | nil => simp
    | cons x c => rw [List.forall₂_cons, List.forall₂_cons, h b (by simp), ih c fun a ha => h a (by simp [ha])]

theorem mem_triples (bs : List MeantBlock) (hs : ∀ b ∈ kind .matched bs, ∀ v ∈ b, ∀ w ∈ b, v.values.length = w.values.length)
    (f m x : List (List Nat)) :
    (f, m, x) ∈ triples (kind .freely bs) (kind .matched bs) (kind .mixed bs) ↔ Parts bs f m x := by
  have h : (f, m, x) ∈ triples (kind .freely bs) (kind .matched bs) (kind .mixed bs) ↔
      x ∈ combos ((kind .mixed bs).map differentPositions) ∧ m ∈ combos ((kind .matched bs).map samePositions) ∧
        f ∈ combos ((kind .freely bs).map positions) := by
    simp only [triples, List.mem_flatMap, List.mem_map]
    constructor
    · rintro ⟨t, ⟨x', hx, m', hm, rfl⟩, f', hf, he⟩
      cases he
      exact ⟨hx, hm, hf⟩
    · rintro ⟨hx, hm, hf⟩
      exact ⟨(m, x), ⟨x, hx, m, hm, rfl⟩, f, hf, rfl⟩
  rw [h, forall₂_mem _ _ _ _ (fun b _ x => mem_differentPositions b x), forall₂_mem _ _ _ _ (fun b hb x => mem_samePositions b (hs b hb) x),
    forall₂_mem _ _ _ _ (fun b _ x => mem_positions b x)]
  exact ⟨fun ⟨h1, h2, h3⟩ => ⟨h3, h2, h1⟩, fun ⟨h1, h2, h3⟩ => ⟨h3, h2, h1⟩⟩

theorem pairs_nodup {α β : Type} (l : List α) (k : List β) (hl : l.Nodup) (hk : k.Nodup) : (l.flatMap fun x => k.map fun m => (m, x)).Nodup := by
  rw [List.nodup_flatMap]
  refine ⟨fun x _ => hk.map fun a b hab => by simpa using hab, hl.imp ?_⟩
  intro a b hab
  simp only [Function.onFun]
  rw [List.disjoint_left]
  intro z hz hw
  rw [List.mem_map] at hz hw
  obtain ⟨_, _, rfl⟩ := hz
  obtain ⟨_, _, h⟩ := hw
  exact hab (congrArg Prod.snd h).symm

theorem triples_nodup (F M X : List Block) : (triples F M X).Nodup := by
  refine pairs_nodup _ _ (pairs_nodup _ _ ?_ ?_) ?_
  · refine combos_nodup _ fun l hl => ?_
    rw [List.mem_map] at hl
    obtain ⟨b, _, rfl⟩ := hl
    exact (positions_nodup b).filter _
  · refine combos_nodup _ fun l hl => ?_
    rw [List.mem_map] at hl
    obtain ⟨b, _, rfl⟩ := hl
    exact samePositions_nodup b
  · refine combos_nodup _ fun l hl => ?_
    rw [List.mem_map] at hl
    obtain ⟨b, _, rfl⟩ := hl
    exact positions_nodup b

theorem kind_mem (k : Matcher) (bs : List MeantBlock) (b : Block) : b ∈ kind k bs ↔ ∃ c ∈ bs, c.1 = k ∧ blk c = b := by
  simp [kind, and_assoc]

theorem fit_of (bs : List MeantBlock) (h : InOrder bs) : Fit (kind .freely bs) (kind .matched bs) (kind .mixed bs) := by
  have hv : ∀ k, ∀ b ∈ kind k bs, Valued b := by
    intro k b hb v hv
    rw [kind_mem] at hb
    obtain ⟨c, hc, _, rfl⟩ := hb
    simp only [blk, List.mem_map] at hv
    obtain ⟨w, hw, rfl⟩ := hv
    exact h.valued c hc w hw
  refine ⟨hv _, hv _, hv _, ?_, ?_⟩
  · intro b hb v hv w hw
    rw [kind_mem] at hb
    obtain ⟨c, hc, hk, rfl⟩ := hb
    simp only [blk, List.mem_map] at hv hw
    obtain ⟨v, hv, rfl⟩ := hv
    obtain ⟨w, hw, rfl⟩ := hw
    exact h.same c hc hk v hv w hw
  · intro b hb he
    rw [kind_mem] at hb
    obtain ⟨c, hc, hk, rfl⟩ := hb
    obtain ⟨ps, h1, h2⟩ := h.different c hc hk
    rw [hk] at h2
    have : ps ∈ differentPositions (blk c) := (mem_differentPositions _ _).2 ⟨(inside_iff _ _).2 h1, h2⟩
    rw [he] at this
    cases this

/-! ## The whole rule -/

theorem empty_ok (F M X : List Block) (h : Fit F M X) :
    RuleVariables.empty ⟨[], F, M, X⟩ = .ok (!(hasVariable F || hasVariable M || hasVariable X)) := by
  have rf := runF F h.f
  have rm := runM M h.m h.same
  have rx := runX X h.x h.diff
  have ef : Iter.eq (bF F) (eF F) = !hasVariable F := rf.ends _ (List.mem_of_mem_head? rf.head)
  have em : Iter.eq (bM M) (eM M) = !hasVariable M := rm.ends _ (List.mem_of_mem_head? rm.head)
  have ex : Iter.eq (bX X) (eX X) = !hasVariable X := rx.ends _ (List.mem_of_mem_head? rx.head)
  rw [RuleVariables.empty, beginOf_ok _ _ atFirst atLast _ (fun b _ => freelyBegin_ok b) (fun b _ => freelyEnd_ok b),
    endOf_ok _ _ atFirst atLast _ (fun b _ => freelyBegin_ok b) (fun b _ => freelyEnd_ok b),
    beginOf_ok _ _ (fun b => ⟨atFirst b⟩) (fun b => ⟨atLast b⟩) _ (fun b hb => matchedBegin_ok b (h.same b hb)) (fun b hb => matchedEnd_ok b (h.same b hb)),
    endOf_ok _ _ (fun b => ⟨atFirst b⟩) (fun b => ⟨atLast b⟩) _ (fun b hb => matchedBegin_ok b (h.same b hb)) (fun b hb => matchedEnd_ok b (h.same b hb)),
    beginOf_ok _ _ mixedFirst (fun b => ⟨atLast b⟩) _ (fun b hb => mixedBegin_ok b (h.x b hb)) (fun b _ => mixedEnd_ok b),
    endOf_ok _ _ mixedFirst (fun b => ⟨atLast b⟩) _ (fun b hb => mixedBegin_ok b (h.x b hb)) (fun b _ => mixedEnd_ok b)]
  simp only [ok_bind]
  change (if Iter.eq (bF F) (eF F) = true then if Iter.eq (bM M) (eM M) = true then Outcome.ok (Iter.eq (bX X) (eX X)) else .ok false
    else .ok false) = _
  rw [ef, em, ex]
  cases hasVariable F <;> cases hasVariable M <;> cases hasVariable X <;> rfl

theorem first_ok (F M X : List Block) (h : Fit F M X) :
    RuleVariables.first ⟨[], F, M, X⟩ = .ok (ruleIt F M X (bF F) (bM M) (bX X)) := by
  rw [RuleVariables.first, beginOf_ok _ _ atFirst atLast _ (fun b _ => freelyBegin_ok b) (fun b _ => freelyEnd_ok b),
    endOf_ok _ _ atFirst atLast _ (fun b _ => freelyBegin_ok b) (fun b _ => freelyEnd_ok b),
    beginOf_ok _ _ (fun b => ⟨atFirst b⟩) (fun b => ⟨atLast b⟩) _ (fun b hb => matchedBegin_ok b (h.same b hb)) (fun b hb => matchedEnd_ok b (h.same b hb)),
    endOf_ok _ _ (fun b => ⟨atFirst b⟩) (fun b => ⟨atLast b⟩) _ (fun b hb => matchedBegin_ok b (h.same b hb)) (fun b hb => matchedEnd_ok b (h.same b hb)),
    beginOf_ok _ _ mixedFirst (fun b => ⟨atLast b⟩) _ (fun b hb => mixedBegin_ok b (h.x b hb)) (fun b _ => mixedEnd_ok b),
    endOf_ok _ _ mixedFirst (fun b => ⟨atLast b⟩) _ (fun b hb => mixedBegin_ok b (h.x b hb)) (fun b _ => mixedEnd_ok b)]
  rfl

theorem last_ok (F M X : List Block) (h : Fit F M X) :
    RuleVariables.last ⟨[], F, M, X⟩ = .ok (ruleIt F M X (eF F) (eM M) (eX X)) := by
  rw [RuleVariables.last, beginOf_ok _ _ atFirst atLast _ (fun b _ => freelyBegin_ok b) (fun b _ => freelyEnd_ok b),
    endOf_ok _ _ atFirst atLast _ (fun b _ => freelyBegin_ok b) (fun b _ => freelyEnd_ok b),
    beginOf_ok _ _ (fun b => ⟨atFirst b⟩) (fun b => ⟨atLast b⟩) _ (fun b hb => matchedBegin_ok b (h.same b hb)) (fun b hb => matchedEnd_ok b (h.same b hb)),
    endOf_ok _ _ (fun b => ⟨atFirst b⟩) (fun b => ⟨atLast b⟩) _ (fun b hb => matchedBegin_ok b (h.same b hb)) (fun b hb => matchedEnd_ok b (h.same b hb)),
    beginOf_ok _ _ mixedFirst (fun b => ⟨atLast b⟩) _ (fun b hb => mixedBegin_ok b (h.x b hb)) (fun b _ => mixedEnd_ok b),
    endOf_ok _ _ mixedFirst (fun b => ⟨atLast b⟩) _ (fun b hb => mixedBegin_ok b (h.x b hb)) (fun b _ => mixedEnd_ok b)]
  rfl

theorem triples_head (F M X : List Block) (h : Fit F M X) (t : List (List Nat) × List (List Nat) × List (List Nat))
    (ht : (triples F M X).head? = some t) : stF F t.1 = bF F ∧ stM M t.2.1 = bM M ∧ stX X t.2.2 = bX X := by
  have rf := (runF F h.f).head
  have rm := (runM M h.m h.same).head
  have rx := (runX X h.x h.diff).head
  rw [List.head?_map] at rf rm rx
  rw [triples] at ht
  cases hX : combos (X.map differentPositions) with
  | nil => rw [hX] at rx; cases rx
  | cons x lx =>
    cases hM : combos (M.map samePositions) with
    | nil => rw [hM] at rm; cases rm
    | cons m lm =>
      cases hF : combos (F.map positions) with
      | nil => rw [hF] at rf; cases rf
      | cons f lf =>
        rw [hX] at rx ht; rw [hM] at rm ht; rw [hF] at rf ht
        simp only [List.flatMap_cons, List.map_cons, List.cons_append, List.head?_cons, Option.some.injEq] at ht
        subst ht
        simp only [List.head?_cons, Option.map_some, Option.some.injEq] at rf rm rx
        exact ⟨rf, rm, rx⟩

theorem writeRule_ok (bs : List MeantBlock) (h : InOrder bs) (symbols : List Str) :
    ∃ n, ∀ fuel ≥ n, ∃ m lines, writeRule fuel ⟨[], kind .freely bs, kind .matched bs, kind .mixed bs⟩ symbols [] = .ok (m, lines.flatten) ∧
      OncePerChoice bs symbols lines := by
  have hfit := fit_of bs h
  generalize hF : kind .freely bs = F at *
  generalize hM : kind .matched bs = M at *
  generalize hX : kind .mixed bs = X at *
  have hmt : ∀ t : List (List Nat) × List (List Nat) × List (List Nat), t ∈ triples F M X ↔ Parts bs t.1 t.2.1 t.2.2 := by
    intro t
    have := mem_triples bs (by rw [hM]; exact hfit.same) t.1 t.2.1 t.2.2
    rw [hF, hM, hX] at this
    exact this
  -- the choices
  have hcs1 : ((triples F M X).map fun t => merge bs t.1 t.2.1 t.2.2).Nodup := by
    refine List.Nodup.map_on ?_ (triples_nodup F M X)
    intro t ht u hu he
    obtain ⟨a1, a2, a3⟩ := pick_merge bs _ _ _ ((hmt t).1 ht)
    obtain ⟨b1, b2, b3⟩ := pick_merge bs _ _ _ ((hmt u).1 hu)
    exact Prod.ext (by rw [← a1, ← b1, he]) (Prod.ext (by rw [← a2, ← b2, he]) (by rw [← a3, ← b3, he]))
  have hcs2 : ∀ c, c ∈ ((triples F M X).map fun t => merge bs t.1 t.2.1 t.2.2) ↔ Choice bs c := by
    intro c
    rw [List.mem_map]
    constructor
    · rintro ⟨t, ht, rfl⟩
      exact parts_choice bs _ _ _ ((hmt t).1 ht)
    · intro hc
      obtain ⟨f, m, x, hp, rfl⟩ := choice_parts bs c hc
      exact ⟨(f, m, x), (hmt (f, m, x)).2 hp, rfl⟩
  have rf := runF F hfit.f
  have rm := runM M hfit.m hfit.same
  have rx := runX X hfit.x hfit.diff
  have hmem : ∀ t ∈ triples F M X, t.1 ∈ combos (F.map positions) ∧ t.2.1 ∈ combos (M.map samePositions) ∧
      t.2.2 ∈ combos (X.map differentPositions) := by
    intro t ht
    simp only [triples, List.mem_flatMap, List.mem_map] at ht
    obtain ⟨u, ⟨x, hx, m, hm, rfl⟩, f, hf, rfl⟩ := ht
    exact ⟨hf, hm, hx⟩
  refine ⟨(triples F M X).length + 1, fun fuel hfuel => ?_⟩
  rw [writeRule, empty_ok F M X hfit, ok_bind]
  by_cases hv : (hasVariable F || hasVariable M || hasVariable X) = true
  · rw [hv, first_ok F M X hfit, last_ok F M X hfit, ok_bind, ok_bind]
    rw [if_neg (by simp)]
    obtain ⟨t0, h1, m', lines, h2, h3⟩ := writeAll_ok symbols (ruleIt F M X (eF F) (eM M) (eX X))
      (fun t => ruleIt F M X (stF F t.1) (stM M t.2.1) (stX X t.2.2)) (fun t => (stF F t.1, stM M t.2.1, stX X t.2.2)) F M X (bF F, bM M, bX X)
      (fun _ => rfl) rfl (by
        show (Iter.eq (eF F) (eF F) && Iter.eq (eM M) (eM M) && Iter.eq (eX X) (eX X)) = true
        rw [rf.refl, rm.refl, rx.refl]; rfl)
      (fun t => pairs F t.1 ++ (pairs M t.2.1 ++ pairs X t.2.2)) (fun t => chosen bs (merge bs t.1 t.2.1 t.2.2)) (names bs) (triples F M X)
      (wheel_all F M X hfit)
      (fun t ht => by
        show (Iter.eq (stF F t.1) (eF F) && Iter.eq (stM M t.2.1) (eM M) && Iter.eq (stX X t.2.2) (eX X)) = false
        obtain ⟨a, b, c⟩ := hmem t ht
        rw [rf.ends _ (List.mem_map_of_mem a), rm.ends _ (List.mem_map_of_mem b), rx.ends _ (List.mem_map_of_mem c)]
        revert hv
        cases hasVariable F <;> cases hasVariable M <;> cases hasVariable X <;> simp)
      (fun t ht m => by
        obtain ⟨p1, p2, p3⟩ := (hmt t).1 ht
        rw [hF] at p1; rw [hM] at p2; rw [hX] at p3
        have s1 : Iter.set (stF F t.1) m = .ok (putAll m (pairs F t.1)) :=
          setAll_blocks at_ Inside (fun b ps m hb => setAll_at b ps hb m) F t.1 p1 m
        have s2 : Iter.set (stM M t.2.1) (putAll m (pairs F t.1)) = .ok (putAll (putAll m (pairs F t.1)) (pairs M t.2.1)) :=
          setAll_blocks (fun b ps => (⟨at_ b ps⟩ : MatchedIt)) _ (fun b ps m hb => setAll_at b ps hb.1 m) M t.2.1 p2 _
        have s3 : Iter.set (stX X t.2.2) (putAll (putAll m (pairs F t.1)) (pairs M t.2.1)) =
            .ok (putAll (putAll (putAll m (pairs F t.1)) (pairs M t.2.1)) (pairs X t.2.2)) :=
          setAll_blocks (fun b ps => (⟨at_ b ps⟩ : MixedIt)) _ (fun b ps m hb => setAll_at b ps hb.1 m) X t.2.2 p3 _
        show (Iter.set (stF F t.1) m).bind (fun m1 => (Iter.set (stM M t.2.1) m1).bind fun m2 => Iter.set (stX X t.2.2) m2) = _
        rw [s1, ok_bind, s2, ok_bind, s3]
        simp [putAll, List.foldl_append])
      (fun t ht => by
        have := chosen_perm bs _ _ _ ((hmt t).1 ht)
        rw [hF, hM, hX] at this
        exact this)
      (fun t ht => chosen_names bs _ (parts_choice bs _ _ _ ((hmt t).1 ht))) h.once fuel (by omega) [] List.Pairwise.nil
      (fun e he => by cases he) []
    obtain ⟨g1, g2, g3⟩ := triples_head F M X hfit t0 h1
    simp only [g1, g2, g3, List.nil_append] at h2
    refine ⟨m', lines, h2, _, hcs1, hcs2, ?_⟩
    rw [List.forall₂_map_left_iff]
    exact h3
  · have hv' : (hasVariable F || hasVariable M || hasVariable X) = false := by simpa using hv
    rw [hv', if_pos (by rfl)]
    refine ⟨[], [replaceVariables [] symbols], by simp, _, hcs1, hcs2, ?_⟩
    simp only [Bool.or_eq_false_iff] at hv'
    obtain ⟨⟨v1, v2⟩, v3⟩ := hv'
    have l1 := rf.single v1
    have l2 := rm.single v2
    have l3 := rx.single v3
    rw [List.length_map] at l1 l2 l3
    have hl : ((triples F M X).map fun t => merge bs t.1 t.2.1 t.2.2).length = 1 := by
      rw [List.length_map, triples, List.length_flatMap]
      simp [List.length_flatMap, l1, l2, l3]
    rw [List.length_eq_one_iff] at hl
    obtain ⟨c, hc⟩ := hl
    rw [hc]
    have hch : Choice bs c := (hcs2 c).1 (by rw [hc]; simp)
    have hnames : names bs = [] := by
      rw [names, List.flatMap_eq_nil_iff]
      intro b hb
      have : ∀ k, hasVariable (kind k bs) = false → b.1 = k → b.2.map (·.1) = [] := by
        intro k hk hbk
        rw [hasVariable, List.any_eq_false] at hk
        have := hk (blk b) ((kind_mem k bs _).2 ⟨b, hb, hbk, rfl⟩)
        simp [blk] at this
        simp [this]
      cases hbk : b.1 with
      | freely => exact this .freely (by rw [hF]; exact v1) hbk
      | matched => exact this .matched (by rw [hM]; exact v2) hbk
      | mixed => exact this .mixed (by rw [hX]; exact v3) hbk
    have hchosen : chosen bs c = [] := by
      have := chosen_names bs c hch
      rw [hnames] at this
      exact List.map_eq_nil_iff.1 this
    refine .cons ?_ .nil
    rw [hchosen]
    exact replaceVariables_spec [] [] List.Pairwise.nil (.refl _) symbols

/-- The parser is between two rules. -/
def Between (p : Parser) : Prop := p.values = [] ∧ p.variables = {}

theorem once_core (sets : List (Str × List Str)) (r : RuleText) (h : InOrder (meantBlocks sets r)) :
    ∃ n, ∀ fuel ≥ n, ∃ lines, OncePerChoice (meantBlocks sets r) r.symbols lines ∧ ∀ p, Between p → p.sets = sets →
      rule fuel p r = .ok (some { p with output := p.output ++ lines.flatten }) := by
  obtain ⟨n, hn⟩ := writeRule_ok _ h r.symbols
  refine ⟨n, fun fuel hf => ?_⟩
  obtain ⟨m, lines, h1, h2⟩ := hn fuel hf
  refine ⟨lines, h2, fun p hp hs => ?_⟩
  subst hs
  have hr := readBlocks_ok p.sets p.variables r.blocks (by rw [hp.2]) h.valued
  rw [rule, hr, ok_bind]
  simp only [hp.2, List.nil_append, hp.1]
  have hm : meant p.sets r.blocks = meantBlocks p.sets r := rfl
  rw [hm, h1]
  obtain ⟨sets, vals, vars, out⟩ := p
  obtain ⟨h3, h4⟩ := hp
  simp only at h3 h4
  subst h3 h4
  rfl

theorem rules_core (sets : List (Str × List Str)) (rs : List RuleText) (h : ∀ r ∈ rs, InOrder (meantBlocks sets r)) :
    ∃ n, ∀ fuel ≥ n, ∃ lines : List (List Str), List.Forall₂ (fun r ls => OncePerChoice (meantBlocks sets r) r.symbols ls) rs lines ∧
      ∀ p, Between p → p.sets = sets → ruleList fuel p rs = .ok (some { p with output := p.output ++ lines.flatten.flatten }) := by
  induction rs with
  | nil => exact ⟨0, fun fuel _ => ⟨[], .nil, fun p _ _ => by simp [ruleList]⟩⟩
  | cons r rs ih =>
    obtain ⟨n1, h1⟩ := once_core sets r (h r (by simp))
    obtain ⟨n2, h2⟩ := ih fun r hr => h r (List.mem_cons_of_mem _ hr)
    refine ⟨max n1 n2, fun fuel hf => ?_⟩
    obtain ⟨l1, a1, b1⟩ := h1 fuel (le_trans (le_max_left _ _) hf)
    obtain ⟨l2, a2, b2⟩ := h2 fuel (le_trans (le_max_right _ _) hf)
    refine ⟨l1 :: l2, .cons a1 a2, fun p hp hs => ?_⟩
    rw [ruleList, b1 p hp hs, ok_bind]
    simp only
    have h3 := b2 { p with output := p.output ++ l1.flatten } hp hs
    rw [h3]
    simp

/-- **C89** (partial: rules whose variables are in order).  A rule is written once for each choice of values that its blocks of variables allow, each time with
the values in the place of the variables, and after it the parser is ready for the next rule. -/
theorem C89_once_partial (p : Parser) (hp : Between p) (r : RuleText) (h : InOrder (meantBlocks p.sets r)) :
    ∃ n, ∀ fuel ≥ n, ∃ lines, OncePerChoice (meantBlocks p.sets r) r.symbols lines ∧
      rule fuel p r = .ok (some { p with output := p.output ++ lines.flatten }) := by
  obtain ⟨n, hn⟩ := once_core p.sets r h
  refine ⟨n, fun fuel hf => ?_⟩
  obtain ⟨lines, h1, h2⟩ := hn fuel hf
  exact ⟨lines, h1, h2 p hp rfl⟩

/-- **C89** (partial, several rules).  All rules of a grammar are written one after the other, each once for each of its choices: nothing is left over
from one rule in the next. -/
theorem C89_rules_partial (p : Parser) (hp : Between p) (rs : List RuleText) (h : ∀ r ∈ rs, InOrder (meantBlocks p.sets r)) :
    ∃ n, ∀ fuel ≥ n, ∃ lines : List (List Str), List.Forall₂ (fun r ls => OncePerChoice (meantBlocks p.sets r) r.symbols ls) rs lines ∧
      ruleList fuel p rs = .ok (some { p with output := p.output ++ lines.flatten.flatten }) := by
  obtain ⟨n, hn⟩ := rules_core p.sets rs h
  refine ⟨n, fun fuel hf => ?_⟩
  obtain ⟨lines, h1, h2⟩ := hn fuel hf
  exact ⟨lines, h1, h2 p hp rfl⟩

/-! ## Rules that are not in order -/

theorem each_throws {τ α : Type} (f : τ → Outcome α) (l : List τ) (hu : ∀ t ∈ l, f t ≠ .undefined) (h : ∃ t ∈ l, f t = .throws) :
    each f l = .throws := by
  induction l with
  | nil => obtain ⟨t, ht, _⟩ := h; cases ht
  | cons t l ih =>
    rw [each]
    cases ht : f t with
    | throws => rfl
    | undefined => exact absurd ht (hu t (by simp))
    | ok a =>
      rw [ok_bind, ih (fun u hu' => hu u (List.mem_cons_of_mem _ hu'))]
      · rfl
      · obtain ⟨u, h1, h2⟩ := h
        rcases List.mem_cons.1 h1 with rfl | h1
        · rw [ht] at h2; cases h2
        · exact ⟨u, h1, h2⟩

theorem matchedBegin_throws (b : Block) (h : ∃ v ∈ b, ∃ w ∈ b, v.values.length ≠ w.values.length) : matchedBegin b = .throws := by
  rw [matchedBegin, freelyBegin_ok, ok_bind, matchedOf]
  have : List.zipWith (fun e f : ValueIt => e.pos - f.pos) (atFirst b).last (atFirst b).first = b.map fun v => v.values.length := by
    simp only [atFirst]
    clear h
    induction b with
    | nil => rfl
    | cons v b ih => simp [ih, Values.last, Values.first]
  simp only [this]
  rw [if_neg]
  intro ha
  rw [List.all_eq_true] at ha
  obtain ⟨v, hv, w, hw, hne⟩ := h
  have h1 := ha _ (List.mem_map_of_mem hv)
  have h2 := ha _ (List.mem_map_of_mem hw)
  simp only [beq_iff_eq] at h1 h2
  exact hne (h1.trans h2.symm)

theorem matchedBegin_defined (b : Block) : matchedBegin b ≠ .undefined := by
  rw [matchedBegin, freelyBegin_ok, ok_bind, matchedOf]
  split <;> simp

/-- **C89** (error).  A rule with matched variables that have different numbers of values is refused: an error is reported, and nothing of the rule is
written. -/
theorem C89_unequal (p : Parser) (hp : Between p) (r : RuleText) (hv : ∀ b ∈ meantBlocks p.sets r, ∀ v ∈ b.2, v.2 ≠ [])
    (h : ∃ b ∈ meantBlocks p.sets r, b.1 = .matched ∧ ∃ v ∈ b.2, ∃ w ∈ b.2, v.2.length ≠ w.2.length) (fuel : Nat) :
    rule fuel p r = .ok none := by
  have hr := readBlocks_ok p.sets p.variables r.blocks (by rw [hp.2]) hv
  have hm : meant p.sets r.blocks = meantBlocks p.sets r := rfl
  rw [rule, hr, ok_bind, hm]
  simp only [hp.2, List.nil_append]
  generalize meantBlocks p.sets r = bs at h
  have hb : ∃ b ∈ kind .matched bs, matchedBegin b = .throws := by
    obtain ⟨b, hb, hk, v, hv, w, hw, hne⟩ := h
    exact ⟨blk b, (kind_mem _ _ _).2 ⟨b, hb, hk, rfl⟩,
      matchedBegin_throws _ ⟨⟨v.1, v.2⟩, List.mem_map.2 ⟨v, hv, rfl⟩, ⟨w.1, w.2⟩, List.mem_map.2 ⟨w, hw, rfl⟩, hne⟩⟩
  have hbegin : beginOf matchedBegin matchedEnd (kind .matched bs) = .throws := by
    rw [beginOf, each_throws _ _ (fun b _ => matchedBegin_defined b) hb]
    rfl
  have he : writeRule fuel ⟨[], kind .freely bs, kind .matched bs, kind .mixed bs⟩ r.symbols p.values = .throws := by
    have h1 := beginOf_ok freelyBegin freelyEnd atFirst atLast (kind .freely bs) (fun b _ => freelyBegin_ok b) (fun b _ => freelyEnd_ok b)
    have h2 := endOf_ok freelyBegin freelyEnd atFirst atLast (kind .freely bs) (fun b _ => freelyBegin_ok b) (fun b _ => freelyEnd_ok b)
    rw [writeRule, RuleVariables.empty]
    simp only [h1, h2, ok_bind, hbegin, throws_bind]
    split
    · rfl
    · simp [RuleVariables.first, h1, hbegin]
  rw [he]

/-- **C89 is violated** for a variable without values, as in `where x in ( )`: no error is reported, but an exception is thrown that nothing catches, so the
compiler is aborted. -/
theorem C89_novalues_violated (p : Parser) (hp : Between p) (r : RuleText) (h : ∃ b ∈ meantBlocks p.sets r, ∃ v ∈ b.2, v.2 = []) (fuel : Nat) :
    rule fuel p r = .throws := by
  rw [rule, readBlocks_throws p.sets p.variables r.blocks (by rw [hp.2]) h]
  rfl

end Hfst.Twolc
