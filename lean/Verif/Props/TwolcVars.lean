import Verif.Lemmas.TwolcMap

/-!
# C89: a rule with variables is written once for each allowed choice of values
-/
namespace Hfst.Twolc
open Hfst.Basic (Outcome)

/-! ## Reading the variables -/

/-- A block as the compiler stores it. -/
def blk (b : MeantBlock) : Block := b.2.map fun v => ⟨v.1, v.2⟩

/-- The blocks with a matcher. -/
def kind (k : Matcher) (bs : List MeantBlock) : List Block := (bs.filter fun b => b.1 = k).map blk

theorem pushBack_eq (l : Block) (v : Values) (s : Str) : pushBack (l ++ [v]) s = l ++ [{ v with values := v.values ++ [s] }] := by
  induction l with
  | nil => rfl
  | cons a l ih =>
    cases l with
    | nil => rfl
    | cons b r => simp only [List.cons_append, pushBack] at ih ⊢; rw [ih]

theorem addEach_eq (rv : RuleVariables) (l : Block) (v : Values) (vs : List Str) (h : rv.current = l ++ [v]) :
    rv.addEach vs = .ok { rv with current := l ++ [{ v with values := v.values ++ vs }] } := by
  induction vs generalizing rv v with
  | nil => simp [RuleVariables.addEach, ← h]
  | cons s vs ih =>
    rw [RuleVariables.addEach, RuleVariables.addValue, if_neg (by simp [h]), ok_bind, h, pushBack_eq, ih _ _ rfl]
    simp

theorem addDeclared_eq (sets : List (Str × List Str)) (rv : RuleVariables) (l : Block) (v : Values) (vs : List Str) (h : rv.current = l ++ [v]) :
    addDeclared sets rv vs = .ok { rv with current := l ++ [{ v with values := v.values ++ meantValues sets vs }] } := by
  induction vs generalizing rv v with
  | nil => simp [addDeclared, ← h, meantValues]
  | cons s vs ih =>
    rw [addDeclared]
    cases hs : Hfst.Basic.mapGet sets s with
    | some w =>
      simp only
      rw [RuleVariables.addValues, if_neg (by simp [h]), addEach_eq rv l v w h, ok_bind, ih _ _ rfl]
      simp [meantValues, hs]
    | none =>
      simp only
      rw [RuleVariables.addValue, if_neg (by simp [h]), ok_bind, h, pushBack_eq, ih _ _ rfl]
      simp [meantValues, hs]

theorem initializeAll_eq (sets : List (Str × List Str)) (rv : RuleVariables) (ds : List Declared) :
    initializeAll sets rv ds = .ok { rv with current := rv.current ++ ds.map fun d => ⟨d.1, meantValues sets d.2⟩ } := by
  induction ds generalizing rv with
  | nil => simp [initializeAll]
  | cons d ds ih =>
    rw [initializeAll, setVariableValues, addDeclared_eq sets _ rv.current ⟨d.1, []⟩ d.2 rfl, ok_bind, ih]
    simp [RuleVariables.setVariable]

theorem setMatcher_eq (rv : RuleVariables) (b : MeantBlock) (h : rv.current = blk b) :
    rv.setMatcher b.1 = if ∃ v ∈ b.2, v.2 = [] then .throws else .ok
      ⟨[], rv.freely ++ kind .freely [b], rv.matched ++ kind .matched [b], rv.mixed ++ kind .mixed [b]⟩ := by
  have h1 : (rv.current.any fun v => v.values.isEmpty) = decide (∃ v ∈ b.2, v.2 = []) := by
    rw [h, Bool.eq_iff_iff]
    simp [blk, List.any_eq_true]
  unfold RuleVariables.setMatcher
  rw [h1]
  by_cases hc : ∃ v ∈ b.2, v.2 = []
  · rw [if_pos hc, if_pos (by simpa using hc)]
  · rw [if_neg hc, if_neg (by simpa using hc)]
    obtain ⟨k, vs⟩ := b
    cases k <;> simp [kind, h]

theorem kind_cons (k : Matcher) (b : MeantBlock) (bs : List MeantBlock) : kind k (b :: bs) = kind k [b] ++ kind k bs := by
  simp only [kind, List.filter_cons, List.filter_nil]
  split <;> simp

/-- The meaning of blocks in the text, as in `meantBlocks`. -/
def meant (sets : List (Str × List Str)) (l : List (Matcher × List Declared)) : List MeantBlock :=
  l.map fun b => (b.1, b.2.map fun d => (d.1, meantValues sets d.2))

theorem readBlocks_ok (sets : List (Str × List Str)) (rv : RuleVariables) (l : List (Matcher × List Declared)) (hc : rv.current = [])
    (hv : ∀ b ∈ meant sets l, ∀ v ∈ b.2, v.2 ≠ []) :
    readBlocks sets rv l = .ok ⟨[], rv.freely ++ kind .freely (meant sets l), rv.matched ++ kind .matched (meant sets l),
      rv.mixed ++ kind .mixed (meant sets l)⟩ := by
  induction l generalizing rv with
  | nil => simp [readBlocks, meant, kind, ← hc]
  | cons b l ih =>
    have hb := hv _ (List.mem_cons_self)
    rw [readBlocks, initializeAll_eq, ok_bind,
      setMatcher_eq _ (b.1, b.2.map fun d => (d.1, meantValues sets d.2)) (by simp [hc, blk]),
      if_neg (by rintro ⟨v, h1, h2⟩; exact hb v h1 h2), ok_bind, ih _ rfl (fun c hc => hv c (List.mem_cons_of_mem _ hc))]
    rw [show meant sets (b :: l) = (b.1, b.2.map fun d => (d.1, meantValues sets d.2)) :: meant sets l from rfl,
      kind_cons .freely _ (meant sets l), kind_cons .matched _ (meant sets l), kind_cons .mixed _ (meant sets l)]
    simp only [List.append_assoc]

theorem readBlocks_throws (sets : List (Str × List Str)) (rv : RuleVariables) (l : List (Matcher × List Declared)) (hc : rv.current = [])
    (hv : ∃ b ∈ meant sets l, ∃ v ∈ b.2, v.2 = []) : readBlocks sets rv l = .throws := by
  induction l generalizing rv with
  | nil => obtain ⟨b, hb, _⟩ := hv; cases hb
  | cons b l ih =>
    rw [readBlocks, initializeAll_eq, ok_bind,
      setMatcher_eq _ (b.1, b.2.map fun d => (d.1, meantValues sets d.2)) (by simp [hc, blk])]
    split
    · rfl
    · next h =>
      rw [ok_bind, ih _ rfl]
      obtain ⟨c, h1, h2⟩ := hv
      rcases List.mem_cons.1 h1 with rfl | h1
      · exact absurd h2 h
      · exact ⟨c, h1, h2⟩

/-! ## Choices, block by block and by the kind of block -/

/-- A choice put together from choices for the blocks of each kind. -/
def merge : List MeantBlock → List (List Nat) → List (List Nat) → List (List Nat) → List (List Nat)
  | [], _, _, _ => []
  | (.freely, _) :: bs, f, m, x => f.headD [] :: merge bs f.tail m x
  | (.matched, _) :: bs, f, m, x => m.headD [] :: merge bs f m.tail x
  | (.mixed, _) :: bs, f, m, x => x.headD [] :: merge bs f m x.tail

/-- The part of a choice for the blocks of one kind. -/
def pick (k : Matcher) (bs : List MeantBlock) (c : List (List Nat)) : List (List Nat) :=
  ((bs.zip c).filter fun b => b.1.1 = k).map (·.2)

/-- The positions of a block are in the vectors of values. -/
abbrev Inside (b : Block) (ps : List Nat) : Prop := List.Forall₂ (fun v p => p < v.values.length) b ps

theorem inside_iff (b : MeantBlock) (ps : List Nat) : Inside (blk b) ps ↔ List.Forall₂ (fun v p => p < v.2.length) b.2 ps := by
  rw [Inside, blk, List.forall₂_map_left_iff]

theorem kind_freely_cons (v : List (Str × List Str)) (bs : List MeantBlock) :
    kind .freely ((.freely, v) :: bs) = blk (.freely, v) :: kind .freely bs ∧ kind .matched ((.freely, v) :: bs) = kind .matched bs ∧
      kind .mixed ((.freely, v) :: bs) = kind .mixed bs := by simp [kind]
theorem kind_matched_cons (v : List (Str × List Str)) (bs : List MeantBlock) :
    kind .freely ((.matched, v) :: bs) = kind .freely bs ∧ kind .matched ((.matched, v) :: bs) = blk (.matched, v) :: kind .matched bs ∧
      kind .mixed ((.matched, v) :: bs) = kind .mixed bs := by simp [kind]
theorem kind_mixed_cons (v : List (Str × List Str)) (bs : List MeantBlock) :
    kind .freely ((.mixed, v) :: bs) = kind .freely bs ∧ kind .matched ((.mixed, v) :: bs) = kind .matched bs ∧
      kind .mixed ((.mixed, v) :: bs) = blk (.mixed, v) :: kind .mixed bs := by simp [kind]

/-- Choices for the blocks of each kind. -/
structure Parts (bs : List MeantBlock) (f m x : List (List Nat)) : Prop where
  free : List.Forall₂ Inside (kind .freely bs) f
  same : List.Forall₂ (fun b ps => Inside b ps ∧ ∀ p ∈ ps, ∀ q ∈ ps, p = q) (kind .matched bs) m
  diff : List.Forall₂ (fun b ps => Inside b ps ∧ ps.Nodup) (kind .mixed bs) x

theorem parts_choice (bs : List MeantBlock) (f m x : List (List Nat)) (h : Parts bs f m x) : Choice bs (merge bs f m x) := by
  induction bs generalizing f m x with
  | nil => exact .nil
  | cons b bs ih =>
    obtain ⟨hf, hm, hx⟩ := h
    obtain ⟨k, v⟩ := b
    cases k with
    | freely =>
      obtain ⟨h1, h2, h3⟩ := kind_freely_cons v bs
      rw [h1] at hf; rw [h2] at hm; rw [h3] at hx
      cases hf with
      | cons ha hf => exact .cons ⟨(inside_iff _ _).1 ha, trivial⟩ (ih _ _ _ ⟨hf, hm, hx⟩)
    | matched =>
      obtain ⟨h1, h2, h3⟩ := kind_matched_cons v bs
      rw [h1] at hf; rw [h2] at hm; rw [h3] at hx
      cases hm with
      | cons ha hm => exact .cons ⟨(inside_iff _ _).1 ha.1, ha.2⟩ (ih _ _ _ ⟨hf, hm, hx⟩)
    | mixed =>
      obtain ⟨h1, h2, h3⟩ := kind_mixed_cons v bs
      rw [h1] at hf; rw [h2] at hm; rw [h3] at hx
      cases hx with
      | cons ha hx => exact .cons ⟨(inside_iff _ _).1 ha.1, ha.2⟩ (ih _ _ _ ⟨hf, hm, hx⟩)

theorem choice_parts (bs : List MeantBlock) (c : List (List Nat)) (h : Choice bs c) :
    ∃ f m x, Parts bs f m x ∧ c = merge bs f m x := by
  induction h with
  | nil => exact ⟨[], [], [], ⟨.nil, .nil, .nil⟩, rfl⟩
  | @cons b ps bs c hb hc ih =>
    obtain ⟨f, m, x, ⟨hf, hm, hx⟩, rfl⟩ := ih
    obtain ⟨k, v⟩ := b
    obtain ⟨ha, hk⟩ := hb
    cases k with
    | freely =>
      obtain ⟨h1, h2, h3⟩ := kind_freely_cons v bs
      exact ⟨ps :: f, m, x, ⟨h1 ▸ .cons ((inside_iff _ _).2 ha) hf, h2 ▸ hm, h3 ▸ hx⟩, rfl⟩
    | matched =>
      obtain ⟨h1, h2, h3⟩ := kind_matched_cons v bs
      exact ⟨f, ps :: m, x, ⟨h1 ▸ hf, h2 ▸ .cons ⟨(inside_iff _ _).2 ha, hk⟩ hm, h3 ▸ hx⟩, rfl⟩
    | mixed =>
      obtain ⟨h1, h2, h3⟩ := kind_mixed_cons v bs
      exact ⟨f, m, ps :: x, ⟨h1 ▸ hf, h2 ▸ hm, h3 ▸ .cons ⟨(inside_iff _ _).2 ha, hk⟩ hx⟩, rfl⟩

theorem pick_merge (bs : List MeantBlock) (f m x : List (List Nat)) (h : Parts bs f m x) :
    pick .freely bs (merge bs f m x) = f ∧ pick .matched bs (merge bs f m x) = m ∧ pick .mixed bs (merge bs f m x) = x := by
  induction bs generalizing f m x with
  | nil =>
    obtain ⟨hf, hm, hx⟩ := h
    cases hf; cases hm; cases hx
    exact ⟨rfl, rfl, rfl⟩
  | cons b bs ih =>
    obtain ⟨hf, hm, hx⟩ := h
    obtain ⟨k, v⟩ := b
    cases k with
    | freely =>
      obtain ⟨h1, h2, h3⟩ := kind_freely_cons v bs
      rw [h1] at hf; rw [h2] at hm; rw [h3] at hx
      cases hf with
      | cons ha hf =>
        obtain ⟨i1, i2, i3⟩ := ih _ _ _ ⟨hf, hm, hx⟩
        simp only [pick] at i1 i2 i3
        simp [pick, merge, i1, i2, i3]
    | matched =>
      obtain ⟨h1, h2, h3⟩ := kind_matched_cons v bs
      rw [h1] at hf; rw [h2] at hm; rw [h3] at hx
      cases hm with
      | cons ha hm =>
        obtain ⟨i1, i2, i3⟩ := ih _ _ _ ⟨hf, hm, hx⟩
        simp only [pick] at i1 i2 i3
        simp [pick, merge, i1, i2, i3]
    | mixed =>
      obtain ⟨h1, h2, h3⟩ := kind_mixed_cons v bs
      rw [h1] at hf; rw [h2] at hm; rw [h3] at hx
      cases hx with
      | cons ha hx =>
        obtain ⟨i1, i2, i3⟩ := ih _ _ _ ⟨hf, hm, hx⟩
        simp only [pick] at i1 i2 i3
        simp [pick, merge, i1, i2, i3]

/-! ## The values of a choice -/

/-- The variables of a block with their values at these positions. -/
def blockPairs (b : Block) (ps : List Nat) : Assigned := (b.zip ps).filterMap fun v => (v.1.values[v.2]?).map fun s => (v.1.name, s)

/-- The same for blocks. -/
def pairs (bs : List Block) (c : List (List Nat)) : Assigned := (bs.zip c).flatMap fun b => blockPairs b.1 b.2

theorem blockPairs_blk (b : MeantBlock) (ps : List Nat) :
    blockPairs (blk b) ps = (b.2.zip ps).filterMap fun v => (v.1.2[v.2]?).map fun s => (v.1.1, s) := by
  obtain ⟨k, vs⟩ := b
  simp only [blockPairs, blk]
  induction vs generalizing ps with
  | nil => rfl
  | cons v vs ih =>
    cases ps with
    | nil => rfl
    | cons p ps => simp [List.filterMap_cons, ih]

theorem chosen_cons (b : MeantBlock) (bs : List MeantBlock) (ps : List Nat) (c : List (List Nat)) :
    chosen (b :: bs) (ps :: c) = blockPairs (blk b) ps ++ chosen bs c := by
  rw [blockPairs_blk]; simp [chosen, List.flatMap_cons]

theorem pairs_cons (b : Block) (bs : List Block) (ps : List Nat) (c : List (List Nat)) :
    pairs (b :: bs) (ps :: c) = blockPairs b ps ++ pairs bs c := by
  simp [pairs, List.flatMap_cons]

theorem chosen_perm (bs : List MeantBlock) (f m x : List (List Nat)) (h : Parts bs f m x) :
    (pairs (kind .freely bs) f ++ (pairs (kind .matched bs) m ++ pairs (kind .mixed bs) x)).Perm (chosen bs (merge bs f m x)) := by
  induction bs generalizing f m x with
  | nil =>
    obtain ⟨hf, hm, hx⟩ := h
    cases hf; cases hm; cases hx
    exact .refl _
  | cons b bs ih =>
    obtain ⟨hf, hm, hx⟩ := h
    obtain ⟨k, v⟩ := b
    cases k with
    | freely =>
      obtain ⟨h1, h2, h3⟩ := kind_freely_cons v bs
      rw [h1] at hf; rw [h2] at hm; rw [h3] at hx
      cases hf with
      | cons ha hf =>
        have := ih _ _ _ ⟨hf, hm, hx⟩
        rw [h1, h2, h3, pairs_cons, merge, chosen_cons]
        simp only [List.headD_cons, List.tail_cons, List.append_assoc]
        exact this.append_left _
    | matched =>
      obtain ⟨h1, h2, h3⟩ := kind_matched_cons v bs
      rw [h1] at hf; rw [h2] at hm; rw [h3] at hx
      cases hm with
      | cons ha hm =>
        have := ih _ _ _ ⟨hf, hm, hx⟩
        rw [h1, h2, h3, pairs_cons, merge, chosen_cons]
        simp only [List.headD_cons, List.tail_cons, List.append_assoc]
        refine List.Perm.trans ?_ (this.append_left _)
        exact List.perm_append_comm_assoc _ _ _
    | mixed =>
      obtain ⟨h1, h2, h3⟩ := kind_mixed_cons v bs
      rw [h1] at hf; rw [h2] at hm; rw [h3] at hx
      cases hx with
      | cons ha hx =>
        have := ih _ _ _ ⟨hf, hm, hx⟩
        rw [h1, h2, h3, pairs_cons, merge, chosen_cons]
        simp only [List.headD_cons, List.tail_cons]
        refine List.Perm.trans ?_ (this.append_left _)
        exact ((List.perm_append_comm_assoc _ _ _).append_left _).trans (List.perm_append_comm_assoc _ _ _)

theorem blockPairs_names (b : MeantBlock) (ps : List Nat) (h : Inside (blk b) ps) : (blockPairs (blk b) ps).map (·.1) = b.2.map (·.1) := by
  rw [inside_iff] at h
  rw [blockPairs_blk]
  obtain ⟨k, vs⟩ := b
  simp only at h ⊢
  induction h with
  | nil => rfl
  | @cons v p vs ps hp _ ih => simp [List.getElem?_eq_getElem hp, ih]

theorem chosen_names (bs : List MeantBlock) (c : List (List Nat)) (h : Choice bs c) : (chosen bs c).map (·.1) = names bs := by
  induction h with
  | nil => rfl
  | cons hb _ ih =>
    rw [chosen_cons, List.map_append, ih, blockPairs_names _ _ ((inside_iff _ _).2 hb.1)]
    simp [names, List.flatMap_cons]

/-! ### Setting them -/

theorem setAll_at (b : Block) (ps : List Nat) (h : Inside b ps) (m : Assigned) :
    setAll (List.zipWith ValueIt.mk b ps) m = .ok (putAll m (blockPairs b ps)) := by
  induction h generalizing m with
  | nil => rfl
  | @cons v p b ps hp _ ih =>
    rw [List.zipWith_cons_cons, setAll]
    have : Iter.set (⟨v, p⟩ : ValueIt) m = .ok (put m v.name v.values[p]) := by
      simp only [Iter.set, List.getElem?_eq_getElem hp]
    rw [this, ok_bind, ih]
    simp [blockPairs, List.getElem?_eq_getElem hp, putAll]

theorem setAll_blocks {α : Type} [Iter α] (st : Block → List Nat → α) (R : Block → List Nat → Prop)
    (hst : ∀ b ps m, R b ps → Iter.set (st b ps) m = .ok (putAll m (blockPairs b ps))) (bs : List Block) (c : List (List Nat))
    (h : List.Forall₂ R bs c) (m : Assigned) : setAll (List.zipWith st bs c) m = .ok (putAll m (pairs bs c)) := by
  induction h generalizing m with
  | nil => rfl
  | @cons b ps bs c hb _ ih =>
    rw [List.zipWith_cons_cons, setAll, hst b ps m hb, ok_bind, ih, pairs_cons]
    simp [putAll, List.foldl_append]

/-! ## All blocks -/

/-- The positions that are gone through for the blocks of each kind. -/
def allF (bs : List MeantBlock) : List (List (List Nat)) := combos ((kind .freely bs).map positions)
@[inherit_doc allF] def allM (bs : List MeantBlock) : List (List (List Nat)) := combos ((kind .matched bs).map samePositions)
@[inherit_doc allF] def allX (bs : List MeantBlock) : List (List (List Nat)) := combos ((kind .mixed bs).map differentPositions)

/-- Where the mixed blocks begin. -/
def mixedFirst (b : Block) : MixedIt := ⟨((differentPositions b).head?.map (at_ b)).getD (atLast b)⟩

/-- The iterators at these positions. -/
def stF (B : List Block) (c : List (List Nat)) : ConstIt (ConstIt ValueIt) := ⟨List.zipWith at_ B c, B.map atFirst, B.map atLast⟩
@[inherit_doc stF] def stM (B : List Block) (c : List (List Nat)) : ConstIt MatchedIt :=
  ⟨List.zipWith (fun b ps => ⟨at_ b ps⟩) B c, B.map fun b => ⟨atFirst b⟩, B.map fun b => ⟨atLast b⟩⟩
@[inherit_doc stF] def stX (B : List Block) (c : List (List Nat)) : ConstIt MixedIt :=
  ⟨List.zipWith (fun b ps => ⟨at_ b ps⟩) B c, B.map mixedFirst, B.map fun b => ⟨atLast b⟩⟩

/-- The beginnings and ends. -/
def bF (B : List Block) : ConstIt (ConstIt ValueIt) := ⟨B.map atFirst, B.map atFirst, B.map atLast⟩
@[inherit_doc bF] def eF (B : List Block) : ConstIt (ConstIt ValueIt) := ⟨B.map atLast, B.map atFirst, B.map atLast⟩
@[inherit_doc bF] def bM (B : List Block) : ConstIt MatchedIt :=
  ⟨B.map fun b => ⟨atFirst b⟩, B.map fun b => ⟨atFirst b⟩, B.map fun b => ⟨atLast b⟩⟩
@[inherit_doc bF] def eM (B : List Block) : ConstIt MatchedIt :=
  ⟨B.map fun b => ⟨atLast b⟩, B.map fun b => ⟨atFirst b⟩, B.map fun b => ⟨atLast b⟩⟩
@[inherit_doc bF] def bX (B : List Block) : ConstIt MixedIt := ⟨B.map mixedFirst, B.map mixedFirst, B.map fun b => ⟨atLast b⟩⟩
@[inherit_doc bF] def eX (B : List Block) : ConstIt MixedIt := ⟨B.map fun b => ⟨atLast b⟩, B.map mixedFirst, B.map fun b => ⟨atLast b⟩⟩

/-- There is a variable. -/
def hasVariable (B : List Block) : Bool := B.any fun b => !b.isEmpty

/-- All blocks have values, the matched ones the same number, and the mixed ones different positions. -/
structure Fit (F M X : List Block) : Prop where
  f : ∀ b ∈ F, Valued b
  m : ∀ b ∈ M, Valued b
  x : ∀ b ∈ X, Valued b
  same : ∀ b ∈ M, ∀ v ∈ b, ∀ w ∈ b, v.values.length = w.values.length
  diff : ∀ b ∈ X, differentPositions b ≠ []

theorem runF (B : List Block) (h : ∀ b ∈ B, Valued b) :
    Run ((combos (B.map positions)).map (stF B)) (bF B) (eF B) (hasVariable B) := by
  have := run_const B (fun b => (positions b).map (at_ b)) atFirst atLast (fun b => !b.isEmpty) fun b hb => freely_run b (h b hb)
  rw [combos_map, List.map_map] at this
  exact this

theorem runM (B : List Block) (h : ∀ b ∈ B, Valued b) (hs : ∀ b ∈ B, ∀ v ∈ b, ∀ w ∈ b, v.values.length = w.values.length) :
    Run ((combos (B.map samePositions)).map (stM B)) (bM B) (eM B) (hasVariable B) := by
  have := run_const B (fun b => (samePositions b).map fun ps => (⟨at_ b ps⟩ : MatchedIt)) (fun b => ⟨atFirst b⟩) (fun b => ⟨atLast b⟩)
    (fun b => !b.isEmpty) fun b hb => matched_run b (h b hb) (hs b hb)
  rw [combos_map, List.map_map] at this
  exact this

theorem runX (B : List Block) (h : ∀ b ∈ B, Valued b) (hd : ∀ b ∈ B, differentPositions b ≠ []) :
    Run ((combos (B.map differentPositions)).map (stX B)) (bX B) (eX B) (hasVariable B) := by
  have := run_const B (fun b => (differentPositions b).map fun ps => (⟨at_ b ps⟩ : MixedIt)) mixedFirst (fun b => ⟨atLast b⟩)
    (fun b => !b.isEmpty) fun b hb => mixed_run b (h b hb) (hd b hb)
  rw [combos_map, List.map_map] at this
  exact this

/-- The iterator over all variables. -/
def ruleIt (F M X : List Block) (f : ConstIt (ConstIt ValueIt)) (m : ConstIt MatchedIt) (x : ConstIt MixedIt) : RuleIt :=
  ⟨f, m, x, bF F, bM M, bX X, eF F, eM M, eX X⟩

/-- One step of the three iterators together, which says whether it has come to the end. -/
def step1 (X : List Block) (x : ConstIt MixedIt) : Outcome (ConstIt MixedIt × Bool) :=
  (Iter.next x).bind fun x' => if Iter.eq x' (eX X) then (Outcome.ok ((), false)).bind fun r => .ok (bX X, r.2) else .ok (x', true)
@[inherit_doc step1] def step2 (M X : List Block) (t : ConstIt MatchedIt × ConstIt MixedIt) :
    Outcome ((ConstIt MatchedIt × ConstIt MixedIt) × Bool) :=
  (Iter.next t.1).bind fun m' => if Iter.eq m' (eM M) then (step1 X t.2).bind fun r => .ok ((bM M, r.1), r.2) else .ok ((m', t.2), true)
@[inherit_doc step1] def step3 (F M X : List Block) (t : ConstIt (ConstIt ValueIt) × ConstIt MatchedIt × ConstIt MixedIt) :
    Outcome ((ConstIt (ConstIt ValueIt) × ConstIt MatchedIt × ConstIt MixedIt) × Bool) :=
  (Iter.next t.1).bind fun f' => if Iter.eq f' (eF F) then (step2 M X t.2).bind fun r => .ok ((bF F, r.1), r.2) else .ok ((f', t.2), true)

/-- The positions for all blocks in the order in which they are gone through. -/
def triples (F M X : List Block) : List (List (List Nat) × List (List Nat) × List (List Nat)) :=
  ((combos (X.map differentPositions)).flatMap fun x => (combos (M.map samePositions)).map fun m => (m, x)).flatMap fun t =>
    (combos (F.map positions)).map fun f => (f, t)

theorem wheel_all (F M X : List Block) (h : Fit F M X) :
    Wheel (step3 F M X) (bF F, bM M, bX X) ((triples F M X).map fun t => (stF F t.1, stM M t.2.1, stX X t.2.2)) := by
  have rf := runF F h.f
  have rm := runM M h.m h.same
  have rx := runX X h.x h.diff
  have w1 : Wheel (step1 X) (bX X) ((combos (X.map differentPositions)).map (stX X)) := by
    have := wheel_cons (g := fun _ : Unit => Outcome.ok ((), false)) (b0 := ()) (mk := fun x _ => x) (h := step1 X) rx.refl (fun x t => rfl)
      rx.chain rx.head [()] rfl
    simpa [Function.comp_def] using this
  have w2 := wheel_cons (mk := Prod.mk) (h := step2 M X) rm.refl (fun x t => rfl) rm.chain rm.head _ w1
  have w3 := wheel_cons (mk := Prod.mk) (h := step3 F M X) rf.refl (fun x t => rfl) rf.chain rf.head _ w2
  have he : ((triples F M X).map fun t => (stF F t.1, stM M t.2.1, stX X t.2.2)) =
      (((combos (X.map differentPositions)).map (stX X)).flatMap fun t => ((combos (M.map samePositions)).map (stM M)).map fun x =>
        (x, t)).flatMap fun t => ((combos (F.map positions)).map (stF F)).map fun x => (x, t) := by
    simp only [triples, List.map_flatMap, List.flatMap_map, List.map_map, List.flatMap_assoc, Function.comp_def]
  rw [he]
  exact w3

theorem ruleIt_next (F M X : List Block) (t u : ConstIt (ConstIt ValueIt) × ConstIt MatchedIt × ConstIt MixedIt) (g : Bool)
    (h : step3 F M X t = .ok (u, g)) :
    (ruleIt F M X t.1 t.2.1 t.2.2).next = .ok (if g then ruleIt F M X u.1 u.2.1 u.2.2 else ruleIt F M X (eF F) (eM M) (eX X)) := by
  obtain ⟨f, m, x⟩ := t
  have key : (ruleIt F M X f m x).next = (Iter.next f).bind fun f' =>
      if Iter.eq f' (eF F) then (Iter.next m).bind fun m' =>
        if Iter.eq m' (eM M) then (Iter.next x).bind fun x' =>
          if Iter.eq x' (eX X) then .ok (ruleIt F M X (eF F) (eM M) (eX X)) else .ok (ruleIt F M X (bF F) (bM M) x')
        else .ok (ruleIt F M X (bF F) m' x)
      else .ok (ruleIt F M X f' m x) := rfl
  rw [key]
  simp only [step3, step2, step1] at h
  cases h1 : Iter.next f with
  | throws => rw [h1] at h; simp at h
  | undefined => rw [h1] at h; simp at h
  | ok f' =>
    rw [h1] at h
    simp only [ok_bind] at h ⊢
    by_cases h2 : Iter.eq f' (eF F) = true
    · rw [if_pos h2] at h ⊢
      cases h3 : Iter.next m with
      | throws => rw [h3] at h; simp at h
      | undefined => rw [h3] at h; simp at h
      | ok m' =>
        rw [h3] at h
        simp only [ok_bind] at h ⊢
        by_cases h4 : Iter.eq m' (eM M) = true
        · rw [if_pos h4] at h ⊢
          cases h5 : Iter.next x with
          | throws => rw [h5] at h; simp at h
          | undefined => rw [h5] at h; simp at h
          | ok x' =>
            rw [h5] at h
            simp only [ok_bind] at h ⊢
            by_cases h6 : Iter.eq x' (eX X) = true
            · rw [if_pos h6] at h ⊢
              simp at h; obtain ⟨rfl, rfl⟩ := h; simp
            · rw [if_neg h6] at h ⊢
              simp at h; obtain ⟨rfl, rfl⟩ := h; simp
        · rw [if_neg h4] at h ⊢
          simp at h; obtain ⟨rfl, rfl⟩ := h; simp
    · rw [if_neg h2] at h ⊢
      simp at h; obtain ⟨rfl, rfl⟩ := h; simp

end Hfst.Twolc
