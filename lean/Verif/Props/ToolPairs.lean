import Verif.Spec.ToolStreams
import Mathlib.Data.List.Induction

/-!
# C91, two archives: which transducers are paired, and when the tools fail
-/
namespace Hfst.Tools

variable {α β γ : Type}

theorem succ_beq_one {n : Nat} (h : n ≠ 0) : (n + 1 == 1) = false := by simp [h]

/-- `KeepsSecond` in the form used in the loops: the results of `b'` are those of `b`. -/
def SameResults (step : α → β → Option (γ × β)) (b b' : β) : Prop :=
  ∀ a, result step (a, b') = result step (a, b)

/-- The rounds after the second archive has run out, with one transducer kept from it. -/
theorem pairLoop_kept (step : α → β → Option (γ × β)) (hk : KeepsSecond step) (b0 : β) :
    ∀ (as : List α) (b : β), as ≠ [] → SameResults step b0 b →
      (pairLoop step as [] (some b) 1).written = leading (as.map fun a => result step (a, b0)) ∧
      ((pairLoop step as [] (some b) 1).ending = .success ↔ ∀ a ∈ as, (result step (a, b0)).isSome) ∧
      ((pairLoop step as [] (some b) 1).ending = .success ∨ (pairLoop step as [] (some b) 1).ending = .failure)
  | [], _, h, _ => absurd rfl h
  | a :: as, b, _, hb => by
    have hr : result step (a, b0) = (step a b).map Prod.fst := (hb a).symm
    simp only [pairLoop, List.isEmpty_nil, if_true, List.drop_nil, Bool.not_true, Bool.false_or, beq_self_eq_true,
      Bool.and_true, Bool.and_false, Bool.not_not]
    cases hs : step a b with
    | none =>
      rw [hs] at hr
      simp [hr, leading]
    | some r =>
      obtain ⟨c, b'⟩ := r
      rw [hs] at hr
      cases as with
      | nil => simp [hr, leading, atEnd]
      | cons a2 as =>
        have hb' : SameResults step b0 b' := fun x => (hk a b c b' hs x).trans (hb x)
        have ih := pairLoop_kept step hk b0 (a2 :: as) b' (by simp) hb'
        simp only [List.isEmpty_cons, Bool.not_false, if_true, Bool.false_eq_true, if_false, Run.after]
        refine ⟨?_, ?_, ih.2.2⟩
        · rw [ih.1]; simp [hr, leading]
        · rw [ih.2.1]; simp [hr]

/-- The rounds in which both archives are read. -/
theorem pairLoop_both (step : α → β → Option (γ × β)) :
    ∀ (as : List α) (bs : List β) (n2 : Nat), as ≠ [] → bs ≠ [] → (1 ≤ n2 ∨ 2 ≤ bs.length) →
      (pairLoop step as bs none n2).written = leading ((as.zip bs).map (result step)) ∧
      ((pairLoop step as bs none n2).ending = .success ↔
        as.length = bs.length ∧ ∀ p ∈ as.zip bs, (result step p).isSome) ∧
      ((pairLoop step as bs none n2).ending = .success ∨ (pairLoop step as bs none n2).ending = .failure)
  | [], _, _, h, _, _ => absurd rfl h
  | _ :: _, [], _, _, h, _ => absurd rfl h
  | a :: as, b :: bs, n2, _, _, hn => by
    simp only [pairLoop, List.isEmpty_cons, Bool.false_eq_true, if_false, List.head?_cons, List.drop_succ_cons,
      List.drop_zero]
    cases hs : step a b with
    | none => simp [result, hs, leading]
    | some r =>
      obtain ⟨c, b'⟩ := r
      cases as with
      | nil => cases bs <;> simp [result, hs, leading, atEnd]
      | cons a2 as =>
        cases bs with
        | nil =>
          have : (n2 + 1 == 1) = false := succ_beq_one (hn.elim (fun h => by omega) fun h => by simp at h)
          simp [this, result, hs, leading, atEnd]
        | cons b2 bs =>
          have ih := pairLoop_both step (a2 :: as) (b2 :: bs) (n2 + 1) (by simp) (by simp) (Or.inl (by omega))
          simp only [List.isEmpty_cons, Bool.not_false, Bool.true_or, Bool.and_true, if_true, Run.after]
          refine ⟨?_, ?_, ih.2.2⟩
          · rw [ih.1]; simp [result, hs, leading]
          · rw [ih.2.1]; simp [result, hs]

/-- **C91, two archives (partial).**  Let the operation of a tool leave the second transducer as it is, or change it
only in a way no later operation can tell.  For all archives with at least one transducer each:
* what is written is the result for each pair the two archives give, in order, up to the first operation that fails;
* the tool succeeds exactly if the archives have the same size or the second has exactly one transducer, and no
  operation fails;
* otherwise it reports an error: it never crashes and always ends.
Missing: operations that change the second transducer so that later results are different, see
`C91_constant_violated`. -/
theorem C91_pairs_partial (step : α → β → Option (γ × β)) (hk : KeepsSecond step) (as : List α) (bs : List β)
    (ha : as ≠ []) (hb : bs ≠ []) :
    (binaryTool step as bs).written = leading ((pairsOf as bs).map (result step)) ∧
    ((binaryTool step as bs).ending = .success ↔
      (as.length = bs.length ∨ bs.length = 1) ∧ ∀ p ∈ pairsOf as bs, (result step p).isSome) ∧
    ((binaryTool step as bs).ending = .success ∨ (binaryTool step as bs).ending = .failure) := by
  have hgood : (!as.isEmpty && !bs.isEmpty) = true := by cases as <;> cases bs <;> simp_all
  unfold binaryTool
  simp only [hgood, if_true]
  match bs, hb with
  | b1 :: b2 :: bs, _ =>
    have := pairLoop_both step as (b1 :: b2 :: bs) 0 ha (by simp) (Or.inr (by simp))
    simp only [pairsOf]
    refine ⟨this.1, ?_, this.2.2⟩
    rw [this.2.1]
    simp
  | [b], _ =>
    cases as with
    | nil => exact absurd rfl ha
    | cons a as =>
      simp only [pairLoop, List.isEmpty_cons, Bool.false_eq_true, if_false, List.head?_cons, List.drop_succ_cons,
        List.drop_zero, pairsOf]
      cases hs : step a b with
      | none => simp [result, hs, leading]
      | some r =>
        obtain ⟨c, b'⟩ := r
        cases as with
        | nil => simp [result, hs, leading, atEnd]
        | cons a2 as =>
          have hb' : SameResults step b b' := hk a b c b' hs
          have ih := pairLoop_kept step hk b (a2 :: as) b' (by simp) hb'
          simp only [List.isEmpty_cons, List.isEmpty_nil, Bool.not_false, Bool.not_true, Bool.false_or,
            Bool.and_false, Bool.true_and, Nat.zero_add, beq_self_eq_true, if_true, Bool.false_eq_true, if_false,
            Run.after]
          refine ⟨?_, ?_, ih.2.2⟩
          · rw [ih.1]; simp [result, hs, leading, Function.comp_def]
          · rw [ih.2.1]; simp [result, hs]

/-- Three transducers against one; the operation fails for none. -/
example : let step : Nat → Nat → Option (Nat × Nat) := fun a b => if a = 9 then none else some (10 * a + b, b)
    KeepsSecond step ∧ binaryTool step [1, 2, 3] [5] = ⟨[15, 25, 35], .success⟩ ∧
    binaryTool step [1, 2, 3] [5, 6] = ⟨[15, 26], .failure⟩ ∧
    binaryTool step [1, 9, 3] [5] = ⟨[15], .failure⟩ ∧
    binaryTool step [1] [5, 6] = ⟨[15], .failure⟩ := by
  refine ⟨?_, by decide, by decide, by decide, by decide⟩
  intro a b c b' h a'
  simp only at h
  split at h
  · cases h
  · cases h; rfl

/-- **C91, hfst-compare.**  hfst-compare has exit code 0 exactly if the archives have the same size or the second has
one transducer, and in every pair the two are found equal. -/
theorem C91_compare_partial (step : α → β → Option (Bool × β)) (hk : KeepsSecond step) (as : List α) (bs : List β)
    (ha : as ≠ []) (hb : bs ≠ []) :
    (compareTool step as bs).ending = .success ↔
      (as.length = bs.length ∨ bs.length = 1) ∧ ∀ p ∈ pairsOf as bs, result step p = some true := by
  obtain ⟨hw, he, hsf⟩ := C91_pairs_partial step hk as bs ha hb
  have hall : ∀ l : List (Option Bool), (∀ o ∈ l, o.isSome) →
      ((leading l).all (fun c => c) = true ↔ ∀ o ∈ l, o = some true) := by
    intro l
    induction l with
    | nil => simp [leading]
    | cons o l ih =>
      intro h
      have ho := h o (by simp)
      obtain ⟨v, rfl⟩ := Option.isSome_iff_exists.1 ho
      have := ih (fun o' ho' => h o' (by simp [ho']))
      simp only [leading, List.all_cons, Bool.and_eq_true, this]
      simp
  unfold compareTool
  rcases hsf with hs | hf
  · simp only [hs]
    obtain ⟨h1, h2⟩ := he.1 hs
    have h2' : ∀ o ∈ (pairsOf as bs).map (result step), o.isSome := by
      intro o ho; obtain ⟨p, hp, rfl⟩ := List.mem_map.1 ho; exact h2 p hp
    have := hall _ h2'
    rw [← hw] at this
    by_cases hh : (binaryTool step as bs).written.all (fun c => c) = true
    · rw [if_pos hh]
      refine ⟨fun _ => ⟨h1, fun p hp => this.1 hh _ (List.mem_map.2 ⟨p, hp, rfl⟩)⟩, fun _ => hs⟩
    · rw [if_neg hh]
      refine ⟨(fun h => by cases h), fun h => absurd (this.2 ?_) hh⟩
      intro o ho; obtain ⟨p, hp, rfl⟩ := List.mem_map.1 ho; exact h.2 p hp
  · simp only [hf]
    refine ⟨(fun h => nomatch h), fun h => ?_⟩
    have := he.2 ⟨h.1, fun p hp => by rw [h.2 p hp]; rfl⟩
    rw [hf] at this; cases this

example : let step : Nat → Nat → Option (Bool × Nat) := fun a b => some (a == b, b)
    compareTool step [4, 4] [4] = ⟨[true, true], .success⟩ ∧
    compareTool step [4, 5] [4] = ⟨[true, false], .failure⟩ ∧
    compareTool step [4, 4, 4] [4, 4] = ⟨[true, true], .failure⟩ := by
  refine ⟨by decide, by decide, by decide⟩

/-! ## hfst-compose -/

variable {τ : Type}

/-- The rounds of hfst-compose after the second archive has run out. -/
theorem composeLoop_kept (step : τ → τ → Option (τ × τ)) (hk : KeepsSecond step) (b0 : τ) :
    ∀ (as : List τ) (b : τ) (fuel n1 : Nat) (k1 : Option τ), as ≠ [] → as.length ≤ fuel → SameResults step b0 b →
      (composeLoop step fuel as [] k1 (some b) n1 1).written = leading (as.map fun a => result step (a, b0)) ∧
      ((composeLoop step fuel as [] k1 (some b) n1 1).ending = .success ↔
        ∀ a ∈ as, (result step (a, b0)).isSome) ∧
      ((composeLoop step fuel as [] k1 (some b) n1 1).ending = .success ∨
        (composeLoop step fuel as [] k1 (some b) n1 1).ending = .failure)
  | [], _, _, _, _, h, _, _ => absurd rfl h
  | a :: as, b, 0, _, _, _, hf, _ => by simp at hf
  | a :: as, b, fuel + 1, n1, k1, _, hf, hb => by
    have hr : result step (a, b0) = (step a b).map Prod.fst := (hb a).symm
    simp only [composeLoop, List.isEmpty_nil, List.isEmpty_cons, Bool.false_eq_true, if_false, if_true,
      List.head?_cons, List.drop_succ_cons, List.drop_zero, List.drop_nil, Bool.not_true, Bool.and_false,
      Bool.or_false, Bool.false_or, beq_self_eq_true, Bool.and_true]
    cases hs : step a b with
    | none =>
      rw [hs] at hr
      simp [hr, leading]
    | some r =>
      obtain ⟨c, b'⟩ := r
      rw [hs] at hr
      cases as with
      | nil => simp [hr, leading, atEnd]
      | cons a2 as =>
        have hb' : SameResults step b0 b' := fun x => (hk a b c b' hs x).trans (hb x)
        have ih := composeLoop_kept step hk b0 (a2 :: as) b' fuel (n1 + 1) none (by simp)
          (by simp at hf ⊢; omega) hb'
        simp only [List.isEmpty_cons, Bool.not_false, if_true, Bool.false_eq_true, if_false, Run.after]
        refine ⟨?_, ?_, ih.2.2⟩
        · rw [ih.1]; simp [hr, leading]
        · rw [ih.2.1]; simp [hr]

/-- The rounds of hfst-compose in which both archives are read. -/
theorem composeLoop_both (step : τ → τ → Option (τ × τ)) :
    ∀ (as bs : List τ) (fuel n1 n2 : Nat) (k1 k2 : Option τ), as ≠ [] → bs ≠ [] → as.length ≤ fuel →
      (1 ≤ n1 ∨ 2 ≤ as.length) → (1 ≤ n2 ∨ 2 ≤ bs.length) →
      (composeLoop step fuel as bs k1 k2 n1 n2).written = leading ((as.zip bs).map (result step)) ∧
      ((composeLoop step fuel as bs k1 k2 n1 n2).ending = .success ↔
        as.length = bs.length ∧ ∀ p ∈ as.zip bs, (result step p).isSome) ∧
      ((composeLoop step fuel as bs k1 k2 n1 n2).ending = .success ∨
        (composeLoop step fuel as bs k1 k2 n1 n2).ending = .failure)
  | [], _, _, _, _, _, _, h, _, _, _, _ => absurd rfl h
  | _ :: _, [], _, _, _, _, _, _, h, _, _, _ => absurd rfl h
  | a :: as, b :: bs, 0, _, _, _, _, _, _, hf, _, _ => by simp at hf
  | a :: as, b :: bs, fuel + 1, n1, n2, k1, k2, _, _, hf, hn1, hn2 => by
    simp only [composeLoop, List.isEmpty_cons, Bool.false_eq_true, if_false, List.head?_cons, List.drop_succ_cons,
      List.drop_zero]
    cases hs : step a b with
    | none => simp [result, hs, leading]
    | some r =>
      obtain ⟨c, b'⟩ := r
      cases as with
      | nil =>
        have : (n1 + 1 == 1) = false := succ_beq_one (hn1.elim (fun h => by omega) fun h => by simp at h)
        cases bs <;> simp [this, result, hs, leading, atEnd]
      | cons a2 as =>
        cases bs with
        | nil =>
          have : (n2 + 1 == 1) = false := succ_beq_one (hn2.elim (fun h => by omega) fun h => by simp at h)
          simp [this, result, hs, leading, atEnd]
        | cons b2 bs =>
          have ih := composeLoop_both step (a2 :: as) (b2 :: bs) fuel (n1 + 1) (n2 + 1) none none (by simp) (by simp)
            (by simp at hf ⊢; omega) (Or.inl (by omega)) (Or.inl (by omega))
          simp only [List.isEmpty_cons, Bool.not_false, Bool.true_or, Bool.and_true, if_true, Bool.false_eq_true,
            if_false, Run.after]
          refine ⟨?_, ?_, ih.2.2⟩
          · rw [ih.1]; simp [result, hs, leading]
          · rw [ih.2.1]; simp [result, hs]

/-- **C91, hfst-compose (partial).**  The same as for the other tools, if the first archive has at least two
transducers or the second has one.  Missing: one transducer in the first archive and more in the second, see
`C91_compose_violated`. -/
theorem C91_compose_partial (step : τ → τ → Option (τ × τ)) (hk : KeepsSecond step) (as bs : List τ)
    (ha : as ≠ []) (hb : bs ≠ []) (hm : 2 ≤ as.length ∨ bs.length = 1) :
    (composeTool step as bs).written = leading ((pairsOf as bs).map (result step)) ∧
    ((composeTool step as bs).ending = .success ↔
      (as.length = bs.length ∨ bs.length = 1) ∧ ∀ p ∈ pairsOf as bs, (result step p).isSome) ∧
    ((composeTool step as bs).ending = .success ∨ (composeTool step as bs).ending = .failure) := by
  have hgood : (!as.isEmpty && !bs.isEmpty) = true := by cases as <;> cases bs <;> simp_all
  unfold composeTool
  simp only [hgood, if_true]
  match bs, hb, hm with
  | b1 :: b2 :: bs, _, hm =>
    have := composeLoop_both step as (b1 :: b2 :: bs) (as.length + (b1 :: b2 :: bs).length) 0 0 none none ha
      (by simp) (by omega) (by simp at hm; exact Or.inr hm) (Or.inr (by simp))
    simp only [pairsOf]
    refine ⟨this.1, ?_, this.2.2⟩
    rw [this.2.1]
    simp
  | [b], _, _ =>
    cases as with
    | nil => exact absurd rfl ha
    | cons a as =>
      obtain ⟨fuel, hfu, hle⟩ : ∃ fuel, (a :: as).length + [b].length = fuel + 1 ∧ as.length ≤ fuel :=
        ⟨as.length + 1, by simp, by omega⟩
      rw [hfu]
      simp only [composeLoop, List.isEmpty_cons, Bool.false_eq_true, if_false, List.head?_cons, List.drop_succ_cons,
        List.drop_zero, pairsOf]
      cases hs : step a b with
      | none => simp [result, hs, leading]
      | some r =>
        obtain ⟨c, b'⟩ := r
        cases as with
        | nil => simp [result, hs, leading, atEnd]
        | cons a2 as =>
          have hb' : SameResults step b b' := hk a b c b' hs
          have ih := composeLoop_kept step hk b (a2 :: as) b' fuel 1 none (by simp)
            hle hb'
          simp only [List.isEmpty_cons, List.isEmpty_nil, Bool.not_false, Bool.not_true, Bool.false_or,
            Bool.and_false, Bool.true_and, Nat.zero_add, beq_self_eq_true, if_true, Bool.false_eq_true, if_false,
            Bool.or_false, Run.after]
          refine ⟨?_, ?_, ih.2.2⟩
          · rw [ih.1]; simp [result, hs, leading, Function.comp_def]
          · rw [ih.2.1]; simp [result, hs]

/-- The results of composing one transducer with a chain of others, each with the result before
(what tools/src/hfst-compose.cc:240-377 computes for one transducer in the first archive). -/
def chain (op : τ → τ → τ) (a : τ) : List τ → List τ
  | [] => []
  | b :: bs => op a b :: chain op (op a b) bs

theorem composeLoop_chain (op : τ → τ → τ) : ∀ (bs : List τ) (a : τ) (fuel n2 : Nat) (k2 : Option τ), bs ≠ [] →
    bs.length ≤ fuel →
    composeLoop (fun a b => some (op a b, b)) fuel [] bs (some a) k2 1 n2 = ⟨chain op a bs, .success⟩
  | [], _, _, _, _, h, _ => absurd rfl h
  | b :: bs, a, 0, _, _, _, hf => by simp at hf
  | b :: bs, a, fuel + 1, n2, k2, _, hf => by
    simp only [composeLoop, List.isEmpty_nil, List.isEmpty_cons, Bool.false_eq_true, if_false, if_true,
      List.head?_cons, List.drop_succ_cons, List.drop_zero, List.drop_nil, Bool.not_true, Bool.false_and,
      Bool.false_or, beq_self_eq_true, Bool.true_and]
    cases bs with
    | nil => simp [chain, atEnd]
    | cons b2 bs =>
      have ih := composeLoop_chain op (b2 :: bs) (op a b) fuel (n2 + 1) none (by simp) (by simp at hf ⊢; omega)
      simp only [List.isEmpty_cons, Bool.not_false, if_true, Bool.false_eq_true, if_false]
      rw [ih]
      simp [Run.after, chain]

/-- What hfst-compose does with one transducer in the first archive, whatever the operation and the second archive:
it succeeds and writes the chain. -/
theorem composeTool_chain (op : τ → τ → τ) (a : τ) (bs : List τ) (hb : bs ≠ []) :
    composeTool (fun a b => some (op a b, b)) [a] bs = ⟨chain op a bs, .success⟩ := by
  match bs, hb with
  | [b], _ => simp [composeTool, composeLoop, chain, atEnd]
  | b :: b2 :: bs, _ =>
    obtain ⟨fuel, hfu, hle⟩ : ∃ fuel, [a].length + (b :: b2 :: bs).length = fuel + 1 ∧ (b2 :: bs).length ≤ fuel :=
      ⟨(b2 :: bs).length + 1, by simp; omega, by omega⟩
    have ih := composeLoop_chain op (b2 :: bs) (op a b) fuel 1 none (by simp) hle
    unfold composeTool
    rw [hfu]
    simp only [List.isEmpty_cons, Bool.not_false, Bool.and_true, if_true, composeLoop, Bool.false_eq_true, if_false,
      List.head?_cons, List.drop_succ_cons, List.drop_zero, List.drop_nil, List.isEmpty_nil, Bool.not_true,
      Bool.and_false, Bool.false_and, Bool.false_or, Nat.zero_add, beq_self_eq_true]
    rw [ih]
    simp [Run.after, chain]

/-- Composition of finite relations, for the example below (what tools/src/hfst-compose.cc:311 computes for
transducers). -/
def relComp (r s : List (Nat × Nat)) : List (Nat × Nat) :=
  r.flatMap fun p => (s.filter fun q => q.1 = p.2).map fun q => (p.1, q.2)

/-- **C91 is violated by hfst-compose.**  With one transducer in the first archive and two in the second the help text
and the checks of the other tools promise an error ("must have the same number of transducers"), and hfst-compose's own
message allows the case as that of a constant first transducer.  The tool succeeds, but the second result is neither
missing nor the composition of the first transducer with the second one of the archive: it is composed with the result
before.  Here the relations 1:2 and then 2:3 and 2:4 give 1:3 and nothing, instead of 1:3 and 1:4. -/
theorem C91_compose_violated :
    composeTool (fun a b => some (relComp a b, b)) [[(1, 2)]] [[(2, 3)], [(2, 4)]] = ⟨[[(1, 3)], []], .success⟩ ∧
    relComp [(1, 2)] [(2, 4)] = [(1, 4)] := by
  refine ⟨?_, by decide⟩
  rw [composeTool_chain _ _ _ (by simp)]
  decide

example : let step : Nat → Nat → Option (Nat × Nat) := fun a b => some (10 * a + b, b)
    composeTool step [1, 2, 3] [5] = ⟨[15, 25, 35], .success⟩ ∧
    composeTool step [1, 2] [5, 6, 7] = ⟨[15, 26], .failure⟩ ∧
    composeTool step [1] [5, 6] = ⟨[15, 156], .success⟩ := by
  refine ⟨by decide, by decide, by decide⟩

end Hfst.Tools
