import Verif.Props.OlSpellGraph

/-!
# Examples and counterexamples for the spell checker (C42)
-/
namespace Hfst.Ol
open Hfst.Basic

theorem spells_nonzero {n : Nat} {table : List Bytes} {other : Nat} {s : Bytes} {ks : List Nat} (h : Spells n table other s ks) (ho : other ≠ 0)
    (h0 : ∀ x, table[0]? = some x → ¬ x <:+: s) : ∀ k ∈ ks, k ≠ 0 := by
  induction h with
  | done => intro k hk; cases hk
  | @known x rest k ks hl _ ih =>
    intro j hj
    rcases List.mem_cons.mp hj with rfl | hj
    · rintro rfl
      exact h0 x hl.knows.2 hl.starts.isInfix
    · exact ih (fun y hy hyr => h0 y hy (hyr.trans (List.suffix_append _ _).isInfix)) j hj
  | @other c x rest ks _ _ _ _ ih =>
    intro j hj
    rcases List.mem_cons.mp hj with rfl | hj
    · exact ho
    · exact ih (fun y hy hyr => h0 y hy (hyr.trans (List.suffix_append (c :: x) _).isInfix)) j hj

theorem ascii_not_cut {n : Nat} {table : List Bytes} {other : Nat} {s : Bytes} (h : CutShort n table other s) (hs : ∀ c ∈ s, c ≤ 127) : False := by
  induction h with
  | @here c rest _ _ h =>
    have := hs c (List.mem_cons_self ..)
    unfold Utf8.nByteUtf8 at h
    rw [if_pos this] at h
    simp at h
  | known _ _ ih => exact ih fun c hc => hs c (List.mem_append_right _ hc)
  | other _ _ _ _ ih => exact ih fun c hc => hs c (List.mem_append_right _ hc)

/-- Words `ab` (weight 1) and `cb` (weight 2). -/
def spellWords : Graph where
  states := [[⟨1, "a".toList, "a".toList, 1⟩, ⟨1, "c".toList, "c".toList, 2⟩], [⟨2, "b".toList, "b".toList, 0⟩], []]
  finals := [(2, 0)]
  alphabet := [epsilon, unknown, identity, "a".toList, "b".toList, "c".toList]

/-- Errors: `a` for `c` (weight 3), and any other character for `a` (weight 5). -/
def spellErrors : Graph where
  states := [[⟨0, "a".toList, "a".toList, 0⟩, ⟨0, "a".toList, "c".toList, 3⟩, ⟨0, "b".toList, "b".toList, 0⟩, ⟨0, unknown, "a".toList, 5⟩]]
  finals := [(0, 0)]
  alphabet := [epsilon, unknown, identity, "a".toList, "b".toList, "c".toList]

theorem spellWords_suitable : Suitable spellWords :=
  suitable_of (by decide) (by decide) (by decide +kernel) (by decide +kernel) (by decide +kernel) (by decide +kernel)

theorem spellErrors_suitable : Suitable spellErrors :=
  suitable_of (by decide) (by decide) (by decide +kernel) (by decide +kernel) (by decide +kernel) (by decide +kernel)

/-- What is made of a graph by the conversion, as a transducer. -/
def machineOf (g : Graph) : Machine := (madeFor g).machine smallWeight (-1)

theorem usable_of {g : Graph} (hg : Suitable g) (hE : ∀ w, HasWeight g w → smallWeight (smallBits w) = w ∧ smallBits w ≠ noIndex)
    (h : (match convert symOrder full85 smallBits g with | .ok _ => true | _ => false) = true)
    (hi : (madeFor g).indices.length ≤ targetStart) (ht : (madeFor g).transitions.length ≤ targetStart) :
    ∃ pos, Usable g (machineOf g) (madeFor g).table ((madeFor g).inputs g) pos :=
  convert_usable symOrder symOrder_perm full85_zero hE hg.wf hg.noInsertions hg.bytes (default_read hg) (made_for h) hi ht (-1)

theorem plain_flags {g : Graph} {n : Inputs} {pos : Nat → Nat} (hU : Usable g (machineOf g) (madeFor g).table n pos)
    (h : ∀ x ∈ (madeFor g).table, Flags.isDiacritic x = false) (k : Nat) : ¬ (machineOf g).kinds.Flag k := by
  intro hf
  obtain ⟨x, hx, hd⟩ := (hU.flags k).mp hf
  rw [h x (List.mem_of_getElem? hx)] at hd
  cases hd

theorem plain_cycle {g : Graph} (h : ∀ x ∈ g.states.zipIdx, ∀ a ∈ x.1, a.inp ≠ Basic.epsilon ∧ Flags.isDiacritic a.inp = false) : NoEmptyCycle g := by
  refine ⟨fun _ => 0, fun q a ha hfree => ?_⟩
  obtain ⟨h1, h2⟩ := all_arcs (p := fun _ a => a.inp ≠ Basic.epsilon ∧ Flags.isDiacritic a.inp = false) h q a ha
  rcases hfree with hf | hf
  · exact absurd hf h1
  · rw [h2] at hf
    cases hf

/-- The spell checker made of two graphs. -/
def spellerOf (errors words : Graph) : Speller := match Speller.make (machineOf errors) (machineOf words) with
  | .ok S => S
  | _ => ⟨machineOf errors, machineOf words, []⟩

theorem spellerOf_made {errors words : Graph} (h : (match Speller.make (machineOf errors) (machineOf words) with | .ok _ => true | _ => false) = true) :
    Speller.make (machineOf errors) (machineOf words) = .ok (spellerOf errors words) := by
  unfold spellerOf
  split at h
  · rename_i S hS
    rw [hS]
  · cases h

/-- Checking a word in converted graphs. -/
def checkIn (errors words : Graph) (fuel : Nat) (s : Bytes) : Outcome Bool :=
  (Speller.make (machineOf errors) (machineOf words)).bind fun S =>
    (Encoder.make ((madeFor words).table.map asBytes) (madeFor words).seen).bind fun e => S.check fuel e s

/-- Correcting a word with converted graphs. -/
def correctIn (errors words : Graph) (fuel : Nat) (s : Bytes) : Outcome (List (Bytes × Int)) :=
  (Speller.make (machineOf errors) (machineOf words)).bind fun S =>
    (Encoder.make ((madeFor errors).table.map asBytes) (madeFor errors).seen).bind fun e => S.correct fuel e s

/-- `ab` can be checked in `spellWords`. -/
example : ∃ e fuel₀ b, Encoder.make ((madeFor spellWords).table.map asBytes) (madeFor spellWords).seen = .ok e ∧
      (∀ fuel ≥ fuel₀, (spellerOf spellErrors spellWords).check fuel e [97, 98] = .ok b) ∧
      (b = true ↔ ∃ ks l p, Spells (madeFor spellWords).seen ((madeFor spellWords).table.map asBytes) noSymbol [97, 98] ks ∧
        IsAnalysis spellWords (ks.map fun k => asText ((((madeFor spellWords).table.map asBytes)[k]?).getD [])) l p ∧
        Flags.sIsValidString (flagsOf l) = true) :=
  C42_graph_partial symOrder symOrder_perm full85_zero (weights_of (by decide +kernel) (by decide +kernel)) spellWords_suitable
    (plain_cycle (by decide +kernel)) (made_for (by decide +kernel)) (by decide +kernel) (by decide +kernel) (by decide +kernel)
    (limit := -1) (spellerOf_made (errors := spellErrors) (by decide +kernel)) (by decide +kernel)

example : checkIn spellErrors spellWords 20 [97, 98] = .ok true ∧ checkIn spellErrors spellWords 20 [98, 98] = .ok false := by decide +kernel

theorem spell_correct {s : Bytes} (hs : ∀ c ∈ s, c ≤ 127) (heps : ¬ asBytes epsilon <:+: s) {e : Encoder}
    (he : Encoder.make ((madeFor spellErrors).table.map asBytes) (madeFor spellErrors).seen = .ok e) :
    ∃ fuel₀, ∀ fuel ≥ fuel₀, ∃ m, (spellerOf spellErrors spellWords).correct fuel e s = .ok m ∧ ∀ popped : List (Bytes × Int), popped.Perm m →
      popped.Pairwise (fun a b => laterCorrection a b = false) →
      (popped.map (·.1)).Nodup ∧ popped.Pairwise (fun a b => a.2 ≤ b.2) ∧
      ∀ t w, (t, w) ∈ popped ↔
        (∃ ks, Spells (madeFor spellErrors).seen (machineOf spellErrors).alphabet.table (machineOf spellErrors).alphabet.unknown s ks ∧
          Correction (machineOf spellErrors).kinds (netOf (madeFor spellErrors).table spellErrors) (machineOf spellWords).kinds
            (netOf (madeFor spellWords).table spellWords) ks t w) ∧
        ∀ ks w', Spells (madeFor spellErrors).seen (machineOf spellErrors).alphabet.table (machineOf spellErrors).alphabet.unknown s ks →
          Correction (machineOf spellErrors).kinds (netOf (madeFor spellErrors).table spellErrors) (machineOf spellWords).kinds
            (netOf (madeFor spellWords).table spellWords) ks t w' → w ≤ w' := by
  obtain ⟨pos, hM⟩ := usable_of spellErrors_suitable (weights_of (by decide +kernel) (by decide +kernel)) (by decide +kernel) (by decide +kernel) (by decide +kernel)
  obtain ⟨pos', hL⟩ := usable_of spellWords_suitable (weights_of (by decide +kernel) (by decide +kernel)) (by decide +kernel) (by decide +kernel) (by decide +kernel)
  have hfM := plain_flags hM (by decide +kernel)
  have hfL := plain_flags hL (by decide +kernel)
  have htab : (machineOf spellErrors).alphabet.table = (madeFor spellErrors).table.map asBytes := hM.alphabet
  refine C42_correct_partial (spellerOf_made (by decide +kernel)) (hM.searched spellErrors_suitable) (hL.searched spellWords_suitable)
    (hM.noFreeCycle spellErrors_suitable rfl (plain_cycle (by decide +kernel))) (hL.noFreeCycle spellWords_suitable rfl (plain_cycle (by decide +kernel)))
    (fun _ _ b _ => hfM b.input) ?_ ⟨?_, ?_⟩ (by decide +kernel) (by decide +kernel) (by decide +kernel) (by rw [htab]; exact he) ⟨?_, ?_⟩
    (fun h => ascii_not_cut h hs)
  · intro p _ b hb _
    obtain ⟨a, ha, rfl⟩ := List.mem_map.mp hb
    obtain ⟨h1, k, _, h2, h3, h4, h5, h6⟩ := all_arcs (g := spellErrors) (p := fun _ a =>
      (madeFor spellErrors).table.idxOf a.out ≠ (machineOf spellErrors).alphabet.unknown ∧
      ∃ k < 10, (machineOf spellWords).alphabet.table[k]? = (machineOf spellErrors).alphabet.table[(madeFor spellErrors).table.idxOf a.out]? ∧
        k ≠ 0 ∧ k ≠ noSymbol ∧ k < (madeFor spellWords).seen ∧ k < (machineOf spellWords).orig) (by decide +kernel) p a ha
    exact ⟨hfM _, h1, k, h2, ⟨h3, h4, hfL k, .inl h5⟩, h6⟩
  · intro p _ b hb h0
    obtain ⟨a, ha, rfl⟩ := List.mem_map.mp hb
    exact absurd h0 (all_arcs (g := spellErrors) (p := fun _ a => (madeFor spellErrors).table.idxOf a.out ≠ 0) (by decide +kernel) p a ha)
  · rintro q _ b hb (h0 | h0)
    · obtain ⟨a, ha, rfl⟩ := List.mem_map.mp hb
      exact absurd h0 (all_arcs (g := spellWords) (p := fun _ a => (madeFor spellWords).table.idxOf a.out ≠ 0) (by decide +kernel) q a ha)
    · exact absurd h0 (hfL _)
  · intro ks hks k hk
    refine ⟨spells_nonzero hks (by decide +kernel) ?_ k hk, hfM k⟩
    intro x hx
    rw [htab, List.getElem?_map, hM.tables.epsilon] at hx
    injection hx with hx
    rw [← hx]
    exact heps
  · intro _
    exact ⟨by decide +kernel, .inl (by decide +kernel), rfl⟩

/-- The suggestions for `ab` and for `xb`. -/
example : correctIn spellErrors spellWords 40 [97, 98] = .ok [([99, 98], 5), ([97, 98], 1)] ∧
    correctIn spellErrors spellWords 40 [120, 98] = .ok [([97, 98], 6)] := by decide +kernel

/-! ## What is not as it should be -/

/-- Every word of one character. -/
def anyWord : Graph where
  states := [[⟨1, identity, identity, 1⟩], []]
  finals := [(1, 0)]
  alphabet := [epsilon, unknown, identity, "a".toList, "b".toList, "c".toList]

theorem anyWord_suitable : Suitable anyWord :=
  suitable_of (by decide) (by decide) (by decide +kernel) (by decide +kernel) (by decide +kernel) (by decide +kernel)

theorem encoder_of {g : Graph} (h : (match Encoder.make ((madeFor g).table.map asBytes) (madeFor g).seen with | .ok _ => true | _ => false) = true) :
    ∃ e, Encoder.make ((madeFor g).table.map asBytes) (madeFor g).seen = .ok e := by
  split at h
  · rename_i e he
    exact ⟨e, he⟩
  · cases h

/-- Reading a character that is not known. -/
def unknownAt (g : Graph) (s : Bytes) : Bool := match Encoder.make ((madeFor g).table.map asBytes) (madeFor g).seen with
  | .ok e => (match e.find s with
    | .ok r => decide (r.1 = noSymbol)
    | _ => false)
  | _ => false

theorem find_unknown {g : Graph} {s : Bytes} {e : Encoder} (he : Encoder.make ((madeFor g).table.map asBytes) (madeFor g).seen = .ok e)
    (h : unknownAt g s = true) : ∃ r, e.find s = .ok r ∧ r.1 = noSymbol := by
  unfold unknownAt at h
  rw [he] at h
  dsimp only at h
  cases hr : e.find s with
  | ok r =>
    rw [hr] at h
    exact ⟨r, rfl, of_decide_eq_true h⟩
  | throws => rw [hr] at h; cases h
  | undefined => rw [hr] at h; cases h

/-- **C42 is violated**: a lexicon may accept every character that it does not know, but checking a word with such a character says no. -/
theorem C42_check_violated : ∃ (g : Graph) (C : Converted) (M : Machine) (S : Speller) (e : Encoder) (l : List Step) (p : Int × List (Sym × Sym)),
    Suitable g ∧ convert symOrder full85 smallBits g = .ok C ∧ Speller.make M (C.machine smallWeight (-1)) = .ok S ∧
    Encoder.make (C.table.map asBytes) C.seen = .ok e ∧ IsAnalysis g ["x".toList] l p ∧ Flags.sIsValidString (flagsOf l) = true ∧
    ∀ fuel, 0 < fuel → S.check fuel e (asBytes "x".toList) = .ok false := by
  have hmake := spellerOf_made (errors := spellErrors) (words := anyWord) (by decide +kernel)
  obtain ⟨e, he⟩ := encoder_of (g := anyWord) (by decide +kernel)
  refine ⟨anyWord, madeFor anyWord, machineOf spellErrors, spellerOf spellErrors anyWord, e, [(⟨1, identity, identity, 1⟩, some "x".toList)],
    _, anyWord_suitable, made_for (by decide +kernel), hmake, he,
    ⟨1, 0, .cons (List.mem_cons_self ..) (.inr ⟨.inl rfl, by decide +kernel⟩) (.nil _), by decide, by decide +kernel, rfl⟩, by decide +kernel, ?_⟩
  intro fuel hf
  obtain ⟨k, rfl⟩ : ∃ k, fuel = k + 1 := ⟨fuel - 1, by omega⟩
  obtain ⟨r, h1, h2⟩ := find_unknown he (s := [120]) (by decide +kernel)
  have h3 : spellInput (k + 1) [120] e noSymbol = .ok none := by
    rw [spellInput, h1]
    show (if r.1 = noSymbol then _ else _) = _
    rw [if_pos h2, if_neg (by decide), if_pos rfl]
  unfold Speller.check
  rw [show asBytes "x".toList = [120] by decide, h3]
  rfl

/-- Errors: an `a` too many. -/
def deletions : Graph where
  states := [[⟨0, "a".toList, epsilon, 1⟩, ⟨0, "b".toList, "b".toList, 0⟩]]
  finals := [(0, 0)]
  alphabet := [epsilon, unknown, identity, "a".toList, "b".toList]

/-- The word `b`. -/
def wordB : Graph where
  states := [[⟨1, "b".toList, "b".toList, 1⟩], []]
  finals := [(1, 0)]
  alphabet := [epsilon, unknown, identity, "a".toList, "b".toList]

/-- **C42 is violated**: with transducers that are converted, a suggestion shows the name of epsilon where the error model deletes a symbol.
Here the error model makes `b` of `ab`, and `b` is the only word, but `@_EPSILON_SYMBOL_@b` is suggested. -/
theorem C42_correct_violated : Suitable deletions ∧ Suitable wordB ∧
    (∃ l p, IsAnalysis deletions ["a".toList, "b".toList] l p ∧ p.2.map (·.2) = [epsilon, "b".toList]) ∧
    (∀ input l p, IsAnalysis wordB input l p → input = ["b".toList] ∧ p.2.map (·.2) = ["b".toList]) ∧
    correctIn deletions wordB 40 (asBytes "ab".toList) = .ok [(asBytes "@_EPSILON_SYMBOL_@b".toList, 2)] := by
  refine ⟨suitable_of (by decide) (by decide) (by decide +kernel) (by decide +kernel) (by decide +kernel) (by decide +kernel),
    suitable_of (by decide) (by decide) (by decide +kernel) (by decide +kernel) (by decide +kernel) (by decide +kernel), ?_, ?_, by decide +kernel⟩
  · exact ⟨[(⟨0, "a".toList, epsilon, 1⟩, some "a".toList), (⟨0, "b".toList, "b".toList, 0⟩, some "b".toList)], _,
      ⟨0, 0, .cons (List.mem_cons_self ..) (.inl rfl) (.cons (List.mem_cons_of_mem _ (List.mem_cons_self ..)) (.inl rfl) (.nil _)), by decide, rfl, rfl⟩,
      by decide +kernel⟩
  · rintro input l p ⟨q, f, hr, hq, rfl, rfl⟩
    cases hr with
    | nil => cases hq
    | @cons _ _ x l ha hf hr =>
      obtain ⟨a, c⟩ := x
      cases (List.mem_singleton.mp ha : a = _)
      cases hr with
      | cons ha' => cases ha'
      | nil =>
        cases c with
        | none => exact absurd hf (by unfold Fits; decide +kernel)
        | some c =>
          rcases hf with hf | ⟨hf, _⟩
          · have hf : "b".toList = c := hf
            subst hf
            refine ⟨rfl, ?_⟩
            show List.map (·.2) (List.map shown [((⟨1, "b".toList, "b".toList, 1⟩ : Arc), some "b".toList)]) = _
            decide +kernel
          · exact absurd hf (by decide +kernel)

/-- Errors: any character that is not known may be any other character that is not known. -/
def anyErrors : Graph where
  states := [[⟨0, unknown, unknown, 0⟩, ⟨0, "b".toList, "b".toList, 0⟩]]
  finals := [(0, 0)]
  alphabet := [epsilon, unknown, identity, "b".toList]

/-- **C42 is violated**: if the error model writes the unknown symbol, correcting reads outside of the tables of the lexicon. -/
theorem C42_other_violated : ∃ (S : Speller) (e : Encoder), Speller.make (machineOf anyErrors) (machineOf wordB) = .ok S ∧
    Encoder.make ((madeFor anyErrors).table.map asBytes) (madeFor anyErrors).seen = .ok e ∧
    ∀ fuel, S.correct fuel e (asBytes "x".toList) = .undefined := by
  have hmake := spellerOf_made (errors := anyErrors) (words := wordB) (by decide +kernel)
  obtain ⟨e, he⟩ := encoder_of (g := anyErrors) (by decide +kernel)
  obtain ⟨r, h1, h2⟩ := find_unknown he (s := [120]) (by decide +kernel)
  have hu : (spellerOf anyErrors wordB).mutator.alphabet.unknown = 1 := by decide +kernel
  have s1 : (match (spellerOf anyErrors wordB).lexiconEpsilons (.start (.init (spellerOf anyErrors wordB).lexicon.fd.numFeatures)) [] with
    | .ok [] => true | _ => false) = true := by decide +kernel
  have s2 : (match (spellerOf anyErrors wordB).mutatorEpsilons (.start (.init (spellerOf anyErrors wordB).lexicon.fd.numFeatures)) [] with
    | .ok [] => true | _ => false) = true := by decide +kernel
  have s3 : (match (spellerOf anyErrors wordB).consumeInput [1] (.start (.init (spellerOf anyErrors wordB).lexicon.fd.numFeatures)) [] with
    | .undefined => true | _ => false) = true := by decide +kernel
  generalize spellerOf anyErrors wordB = S at *
  refine ⟨S, e, hmake, he, fun fuel => ?_⟩
  unfold Speller.correct
  rw [show asBytes "x".toList = [120] by decide, hu]
  match fuel with
  | 0 => rfl
  | 1 =>
    rw [spellInput, h1]
    show (if r.1 = noSymbol then _ else _ : Outcome (Option (List Nat))).bind _ = _
    rw [if_pos h2, if_neg (by decide), if_neg (by decide), if_neg (by decide)]
    rfl
  | k + 2 =>
    rw [spellInput, h1]
    show (if r.1 = noSymbol then _ else _ : Outcome (Option (List Nat))).bind _ = _
    rw [if_pos h2, if_neg (by decide), if_neg (by decide), if_neg (by decide), show ([120] : Bytes).drop (Utf8.nByteUtf8 120) = [] from rfl, spellInput]
    show S.correctNumbers (k + 2) [1] = .undefined
    unfold Speller.correctNumbers
    rw [Speller.correctLoop]
    split at s1
    · rename_i h3
      split at s2
      · rename_i h4
        split at s3
        · rename_i h5
          rw [h3]
          dsimp only [Outcome.bind]
          rw [h4]
          dsimp only
          rw [if_neg (by show ¬ 0 = 1; decide), h5]
        · cases s3
      · cases s2
    · cases s1

end Hfst.Ol
