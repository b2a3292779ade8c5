import Verif.Props.OlSpellText

/-!
# The spell checker accepts the lexicon and suggests the best corrections (C42)
-/
namespace Hfst.Ol
open Hfst.Basic

/-- A transducer that the spell checker can search: the tables represent the net `N`, different states have different places, and there is
no default symbol. -/
structure Searched (M : Machine) (n : Inputs) (N : Net) (pos : Nat → Nat) : Prop where
  tables : Represents M n N pos
  symbols : SymbolsOK M.kinds n N
  injective : ∀ q < N.size, ∀ r < N.size, pos q = pos r → q = r
  default : M.alphabet.default = noSymbol

/-- The input can be looked up: it has no name of epsilon or of a flag, and if a character is unknown, there is room for unknown symbols. -/
def InputOK (M : Machine) (n : Inputs) (other : Nat) (s : Bytes) : Prop :=
  (∀ ks, Spells n.count M.alphabet.table other s ks → ∀ k ∈ ks, k ≠ 0 ∧ ¬ M.kinds.Flag k) ∧
    (other ≠ noSymbol → other < M.orig ∧ (other < n.count ∨ n.unknowns) ∧ other = M.alphabet.unknown)

theorem spells_inputs {M : Machine} {n : Inputs} {N : Net} (hS : SymbolsOK M.kinds n N) {other : Nat} {s : Bytes} {ks : List Nat}
    (h : Spells n.count M.alphabet.table other s ks) (ho : other ≠ noSymbol → other < M.orig ∧ (other < n.count ∨ n.unknowns) ∧ other = M.alphabet.unknown)
    (hks : ∀ k ∈ ks, k ≠ 0 ∧ ¬ M.kinds.Flag k) : ∀ k ∈ ks, IsInput M.kinds n k ∧ k < M.orig := by
  induction h with
  | done => intro k hk; cases hk
  | @known x rest k ks hl _ ih =>
    intro j hj
    rcases List.mem_cons.mp hj with rfl | hj
    · obtain ⟨h1, h2⟩ := hks j (List.mem_cons_self ..)
      have h3 := (List.getElem?_eq_some_iff.mp hl.knows.2).1
      have h4 : j < n.count := by
        rcases hl.knows.1 with h | h
        · exact h
        · omega
      have h5 := hS.small
      have h6 : M.kinds.al.table.length = M.alphabet.table.length := rfl
      have h7 : n.count ≤ M.orig := hS.inputs
      exact ⟨⟨h1, by omega, h2, .inl h4⟩, by omega⟩
    · exact ih (fun k hk => hks k (List.mem_cons_of_mem _ hk)) j hj
  | @other c x rest ks ho' _ _ _ ih =>
    intro j hj
    rcases List.mem_cons.mp hj with rfl | hj
    · obtain ⟨h1, h2⟩ := hks j (List.mem_cons_self ..)
      obtain ⟨h3, h4, h5⟩ := ho ho'
      refine ⟨⟨h1, ho', h2, ?_⟩, h3⟩
      rcases h4 with h4 | h4
      · exact .inl h4
      · exact .inr (.inr ⟨h4, .inr h5⟩)
    · exact ih (fun k hk => hks k (List.mem_cons_of_mem _ hk)) j hj

theorem not_cut {n : Nat} {table : List Bytes} {s : Bytes} : ¬ CutShort n table noSymbol s := by
  intro h
  generalize ho : noSymbol = o at h
  induction h with
  | here h => exact h ho.symm
  | known _ _ ih => exact ih
  | other h => exact h ho.symm

/-- **C42, checking**: if no cycle of the lexicon reads nothing, checking a word comes to an end, and it says yes exactly if the lexicon accepts
the symbols of the word (and the flags allow it).  Every character has to be an input symbol of the lexicon: a word with another character is
refused, see `C42_check_violated`. -/
theorem C42_check_partial {M L : Machine} {S : Speller} (hS : Speller.make M L = .ok S) {n : Inputs} {N : Net} {pos : Nat → Nat}
    (hL : Searched L n N pos) (hcycle : NoFreeCycle L.kinds N) (hn : n.count ≤ L.alphabet.table.length)
    (hnames : ∀ x ∈ L.alphabet.table, x ≠ [] ∧ 0 ∉ x) {e : Encoder} (he : Encoder.make L.alphabet.table n.count = .ok e)
    {s : Bytes} (hs : InputOK L n noSymbol s) :
    ∃ fuel₀ b, (∀ fuel ≥ fuel₀, S.check fuel e s = .ok b) ∧
      (b = true ↔ ∃ ks, Spells n.count L.alphabet.table noSymbol s ks ∧ Recognizes L.kinds N ks) := by
  obtain ⟨_, rfl, _⟩ := make_parts hS
  have hsearch : Searchable S n N pos := ⟨hL.tables, hL.symbols, hL.injective, hL.default⟩
  obtain ⟨e', he', hinv⟩ := make_knows hn hnames
  rw [he] at he'
  injection he' with he'
  subst he'
  have hne : ∀ x ∈ S.lexicon.alphabet.table, x ≠ [] := fun x hx => (hnames x hx).1
  have hsp := fun fuel => spell_input hn hne hL.symbols.small hinv noSymbol fuel s
  rcases hsp (s.length + 1) (by omega) with ⟨ks, i1, i2⟩ | ⟨i1, i2⟩ | ⟨_, i2⟩
  · have hin := spells_inputs hL.symbols i2 (fun h => absurd rfl h) (hs.1 ks i2)
    obtain ⟨c, hc⟩ := check_numbers_ends hsearch hin hcycle
    obtain ⟨b, hb⟩ := hc c (Nat.le_refl _)
    refine ⟨max c (s.length + 1), b, fun fuel hf => ?_, ?_⟩
    · have hspell : spellInput fuel s e noSymbol = .ok (some ks) := by
        rcases hsp fuel (by omega) with ⟨ks', j1, j2⟩ | ⟨_, j2⟩ | ⟨_, j2⟩
        · rw [j1, spells_unique hne i2 j2]
        · exact absurd i2 (j2 ks)
        · exact absurd j2 not_cut
      unfold Speller.check
      rw [hspell]
      show S.checkNumbers fuel ks = .ok b
      obtain ⟨b', hb'⟩ := hc fuel (by omega)
      have h1 := check_numbers hsearch hin hb
      have h2 := check_numbers hsearch hin hb'
      rw [hb', show b' = b from by cases b <;> cases b' <;> simp_all]
    · rw [check_numbers hsearch hin hb]
      constructor
      · exact fun h => ⟨ks, i2, h⟩
      · rintro ⟨ks', h1, h2⟩
        rw [spells_unique hne i2 h1]
        exact h2
  · refine ⟨s.length + 1, false, fun fuel hf => ?_, ?_⟩
    · have hspell : spellInput fuel s e noSymbol = .ok none := by
        rcases hsp fuel (by omega) with ⟨ks', _, j2⟩ | ⟨j1, _⟩ | ⟨_, j2⟩
        · exact absurd j2 (i2 ks')
        · exact j1
        · exact absurd j2 not_cut
      unfold Speller.check
      rw [hspell]
      rfl
    · constructor
      · intro h; cases h
      · rintro ⟨ks, h1, _⟩
        exact absurd h1 (i2 ks)
  · exact absurd i2 not_cut

/-- What the error model writes can be read by the lexicon: it is no flag and not the unknown symbol, and it is an input symbol of the lexicon. -/
def WritesFor (M : Machine) (E : Net) (L : Machine) (n' : Inputs) : Prop :=
  ∀ p < E.size, ∀ b ∈ E.arcs p, b.output ≠ 0 → ¬ M.kinds.Flag b.output ∧ b.output ≠ M.alphabet.unknown ∧
    ∃ k, L.alphabet.table[k]? = M.alphabet.table[b.output]? ∧ IsInput L.kinds n' k ∧ k < L.orig

/-- Epsilon and flags that are written have an empty name. -/
def Silent (E : Net) (L : Machine) (N : Net) : Prop :=
  (∀ p < E.size, ∀ b ∈ E.arcs p, b.output = 0 → L.alphabet.table[0]? = some []) ∧
    ∀ q < N.size, ∀ a ∈ N.arcs q, a.output = 0 ∨ L.kinds.Flag a.output → L.alphabet.table[a.output]? = some []

theorem silent_text {E : Net} {L : Machine} {N : Net} (h : Silent E L N) (hS : ∀ q < N.size, ∀ a ∈ N.arcs q, a.target < N.size)
    {q r : Nat} (hq : q < N.size) {l : List (NArc × Option Nat)} (hr : NRun L.kinds N q l r) :
    textOf L.kinds (l.map (·.1.output)) = nameText L.alphabet.table (l.map (·.1.output)) := by
  induction hr with
  | nil => rfl
  | @cons q r a c l ha _ _ ih =>
    have ih := ih (hS q hq a ha)
    unfold textOf nameText at ih ⊢
    rw [List.map_cons, List.flatMap_cons, List.flatMap_cons, ih]
    congr 1
    by_cases h0 : a.output = 0 ∨ (L.kinds.fd.getOperation a.output).isSome = true
    · rw [if_pos h0, h.2 q hq a ha]
      · rfl
      · rcases h0 with h0 | h0
        · exact .inl h0
        · exact .inr (isFlag_iff.mp h0)
    · rw [if_neg h0]
      rfl

theorem note_keys {S : Speller} {x : SpellNode} {m m' : List (Bytes × Int)} (h : S.note x m = .ok m') (hm : (m.map (·.1)).Nodup) : (m'.map (·.1)).Nodup := by
  have hput : ∀ s w, ((mapPut m s w).map (·.1)).Nodup := by
    intro s w
    unfold mapPut
    rw [List.map_cons, List.nodup_cons]
    constructor
    · intro hmem
      obtain ⟨e, he, hes⟩ := List.mem_map.mp hmem
      have := (List.mem_filter.mp he).2
      simp [hes] at this
    · exact (List.Sublist.map _ List.filter_sublist).nodup hm
  unfold Speller.note at h
  obtain ⟨a, _, h⟩ := bind_ok.mp h
  by_cases ha : a = false
  · rw [if_pos ha] at h
    injection h with h
    exact h ▸ hm
  · rw [if_neg ha] at h
    obtain ⟨b, _, h⟩ := bind_ok.mp h
    by_cases hb : b = false
    · rw [if_pos hb] at h
      injection h with h
      exact h ▸ hm
    · rw [if_neg hb] at h
      obtain ⟨s, _, h⟩ := bind_ok.mp h
      obtain ⟨u, _, h⟩ := bind_ok.mp h
      obtain ⟨v, _, h⟩ := bind_ok.mp h
      dsimp only at h
      split at h
      · injection h with h
        rw [← h]
        exact hput _ _
      · split at h
        · injection h with h
          rw [← h]
          exact hput _ _
        · injection h with h
          exact h ▸ hm

theorem correct_keys {S : Speller} {input : List Nat} : ∀ (fuel : Nat) (queue : List SpellNode) (m m' : List (Bytes × Int)),
    S.correctLoop input fuel queue m = .ok m' → (m.map (·.1)).Nodup → (m'.map (·.1)).Nodup
  | _, [], m, m', h, hm => by
    rw [Speller.correctLoop] at h
    injection h with h
    exact h ▸ hm
  | 0, _ :: _, _, _, h, _ => by cases h
  | fuel + 1, x :: queue, m, m', h, hm => by
    rw [Speller.correctLoop] at h
    obtain ⟨q1, _, h⟩ := bind_ok.mp h
    obtain ⟨q2, _, h⟩ := bind_ok.mp h
    split at h
    · obtain ⟨m1, h1, h⟩ := bind_ok.mp h
      exact correct_keys fuel _ m1 m' h (note_keys h1 hm)
    · obtain ⟨q3, _, h⟩ := bind_ok.mp h
      exact correct_keys fuel _ m m' h hm

theorem mapGet_iff {m : List (Bytes × Int)} (hm : (m.map (·.1)).Nodup) {s : Bytes} {w : Int} : (s, w) ∈ m ↔ mapGet m s = some w := by
  refine ⟨fun h => ?_, mapGet_mem⟩
  have h1 := mapGet_isSome_of_mem h
  obtain ⟨w', h2⟩ := Option.isSome_iff_exists.mp h1
  have h3 := mapGet_mem h2
  have h4 : (s, w) = (s, w') := by
    obtain ⟨i, hi, hi'⟩ := List.getElem_of_mem h
    obtain ⟨j, hj, hj'⟩ := List.getElem_of_mem h3
    have : i = j := by
      refine (List.Nodup.getElem_inj_iff (hi := by rw [List.length_map]; exact hi) (hj := by rw [List.length_map]; exact hj) hm).mp ?_
      rw [List.getElem_map, List.getElem_map, hi', hj']
    subst this
    rw [← hi', hj']
  injection h4 with _ h4
  rw [h2, h4]

/-- **C42, correcting**: if no cycle of the error model or of the lexicon reads nothing, correcting a word comes to an end.  The suggestions are
exactly the strings that error model and lexicon make of the word; each has the smallest weight among its derivations and comes once.  Taken from
the queue one after the other, best first, they are in the order of their weights.  Epsilon and flags that are written must have empty names
(`Silent`), see `C42_correct_violated`; the error model has no flags and does not write the unknown symbol, see `C42_other_violated`. -/
theorem C42_correct_partial {M L : Machine} {S : Speller} (hS : Speller.make M L = .ok S) {n n' : Inputs} {E N : Net} {pos pos' : Nat → Nat}
    (hM : Searched M n E pos) (hL : Searched L n' N pos') (hcycle : NoFreeCycle M.kinds E) (hcycle' : NoFreeCycle L.kinds N)
    (hflags : ∀ p < E.size, ∀ b ∈ E.arcs p, ¬ M.kinds.Flag b.input) (hwrites : WritesFor M E L n') (hsilent : Silent E L N)
    (hnodup : L.alphabet.table.Nodup) (hn : n.count ≤ M.alphabet.table.length)
    (hnames : ∀ x ∈ M.alphabet.table, x ≠ [] ∧ 0 ∉ x) {e : Encoder} (he : Encoder.make M.alphabet.table n.count = .ok e)
    {s : Bytes} (hs : InputOK M n M.alphabet.unknown s) (hcut : ¬ CutShort n.count M.alphabet.table M.alphabet.unknown s) :
    ∃ fuel₀, ∀ fuel ≥ fuel₀, ∃ m, S.correct fuel e s = .ok m ∧ ∀ popped : List (Bytes × Int), popped.Perm m →
      popped.Pairwise (fun a b => laterCorrection a b = false) →
      (popped.map (·.1)).Nodup ∧ popped.Pairwise (fun a b => a.2 ≤ b.2) ∧
      ∀ t w, (t, w) ∈ popped ↔
        (∃ ks, Spells n.count M.alphabet.table M.alphabet.unknown s ks ∧ Correction M.kinds E L.kinds N ks t w) ∧
        ∀ ks w', Spells n.count M.alphabet.table M.alphabet.unknown s ks → Correction M.kinds E L.kinds N ks t w' → w ≤ w' := by
  have hmake := hS
  obtain ⟨rfl, rfl, _⟩ := make_parts hS
  have hcorr : Correctable S n n' E N pos pos' := by
    refine ⟨⟨hL.tables, hL.symbols, hL.injective, hL.default⟩, hM.tables, hM.symbols, hM.injective, hM.default, hflags, hnodup, ?_, hsilent.1⟩
    intro p hp b hb h0
    obtain ⟨h1, h2, k, h3, h4, h5⟩ := hwrites p hp b hb h0
    have hk := List.getElem?_eq_getElem (hM.symbols.known p hp b hb).2
    have hk : S.mutator.alphabet.table[b.output]? = some _ := hk
    have h3' := h3.trans hk
    exact ⟨k, make_translates hmake hnodup h0 h1 h2 hk h3', h4, h5, (List.getElem?_eq_some_iff.mp h3').1, h3⟩
  obtain ⟨e', he', hinv⟩ := make_knows hn hnames
  rw [he] at he'
  injection he' with he'
  subst he'
  have hne : ∀ x ∈ S.mutator.alphabet.table, x ≠ [] := fun x hx => (hnames x hx).1
  have hsp := fun fuel => spell_input hn hne hM.symbols.small hinv S.mutator.alphabet.unknown fuel s
  have hfinish : ∀ m : List (Bytes × Int), (m.map (·.1)).Nodup →
      (∀ t w, mapGet m t = some w ↔
        (∃ ks, Spells n.count S.mutator.alphabet.table S.mutator.alphabet.unknown s ks ∧ Correction S.mutator.kinds E S.lexicon.kinds N ks t w) ∧
        ∀ ks w', Spells n.count S.mutator.alphabet.table S.mutator.alphabet.unknown s ks → Correction S.mutator.kinds E S.lexicon.kinds N ks t w' → w ≤ w') →
      ∀ popped : List (Bytes × Int), popped.Perm m → popped.Pairwise (fun a b => laterCorrection a b = false) →
      (popped.map (·.1)).Nodup ∧ popped.Pairwise (fun a b => a.2 ≤ b.2) ∧
      ∀ t w, (t, w) ∈ popped ↔
        (∃ ks, Spells n.count S.mutator.alphabet.table S.mutator.alphabet.unknown s ks ∧ Correction S.mutator.kinds E S.lexicon.kinds N ks t w) ∧
        ∀ ks w', Spells n.count S.mutator.alphabet.table S.mutator.alphabet.unknown s ks → Correction S.mutator.kinds E S.lexicon.kinds N ks t w' → w ≤ w' := by
    intro m hm hget popped hp hord
    refine ⟨(hp.map _).nodup_iff.mpr hm, hord.imp ?_, fun t w => ?_⟩
    · intro a b hab
      unfold laterCorrection at hab
      have := of_decide_eq_false hab
      omega
    · rw [hp.mem_iff, mapGet_iff hm]
      exact hget t w
  rcases hsp (s.length + 1) (by omega) with ⟨ks, i1, i2⟩ | ⟨i1, i2⟩ | ⟨_, i2⟩
  · have hin := spells_inputs hM.symbols i2 hs.2 (hs.1 ks i2)
    obtain ⟨c, hc⟩ := correct_numbers_ends hcorr hin hcycle hcycle'
    refine ⟨max c (s.length + 1), fun fuel hf => ?_⟩
    have hspell : spellInput fuel s e S.mutator.alphabet.unknown = .ok (some ks) := by
      rcases hsp fuel (by omega) with ⟨ks', j1, j2⟩ | ⟨_, j2⟩ | ⟨_, j2⟩
      · rw [j1, spells_unique hne i2 j2]
      · exact absurd i2 (j2 ks)
      · exact absurd j2 hcut
    obtain ⟨m, hm⟩ := hc fuel (by omega)
    refine ⟨m, ?_, hfinish m (correct_keys _ _ _ _ hm (by simp)) fun t w => ?_⟩
    · unfold Speller.correct
      rw [hspell]
      exact hm
    · rw [correct_numbers hcorr hin hm]
      have hiff : ∀ w, Suggests S E N ks 0 0 (.start (.init S.lexicon.fd.numFeatures)) t w ↔ Correction S.mutator.kinds E S.lexicon.kinds N ks t w := by
        intro w
        constructor
        · rintro ⟨m, p', u, l, q', v, r1, r2, r3, r4, r5, r6, r7, r8, r9⟩
          refine ⟨m, p', u, l, q', v, r1, r2, r3, r4, r5, r6, r7, ?_, ?_⟩
          · rw [silent_text hsilent hL.tables.closed hL.tables.nonempty r4]
            exact r8
          · have : SpellNode.weight (.start (.init S.lexicon.fd.numFeatures)) = 0 := rfl
            rw [r9, this]
            omega
        · rintro ⟨m, p', u, l, q', v, r1, r2, r3, r4, r5, r6, r7, r8, r9⟩
          refine ⟨m, p', u, l, q', v, r1, r2, r3, r4, r5, r6, r7, ?_, ?_⟩
          · rw [r8, silent_text hsilent hL.tables.closed hL.tables.nonempty r4]
            rfl
          · have : SpellNode.weight (.start (.init S.lexicon.fd.numFeatures)) = 0 := rfl
            rw [r9, this]
            omega
      unfold LeastOf
      constructor
      · rintro ⟨h1, h2⟩
        refine ⟨⟨ks, i2, (hiff w).mp h1⟩, fun ks' w' h3 h4 => ?_⟩
        rw [← spells_unique hne i2 h3] at h4
        exact h2 w' ((hiff w').mpr h4)
      · rintro ⟨⟨ks', h1, h1'⟩, h2⟩
        rw [← spells_unique hne i2 h1] at h1'
        exact ⟨(hiff w).mpr h1', fun w' h3 => h2 ks w' i2 ((hiff w').mp h3)⟩
  · refine ⟨s.length + 1, fun fuel hf => ?_⟩
    have hspell : spellInput fuel s e S.mutator.alphabet.unknown = .ok none := by
      rcases hsp fuel (by omega) with ⟨ks', _, j2⟩ | ⟨j1, _⟩ | ⟨_, j2⟩
      · exact absurd j2 (i2 ks')
      · exact j1
      · exact absurd j2 hcut
    refine ⟨[], ?_, hfinish [] (by simp) fun t w => ?_⟩
    · unfold Speller.correct
      rw [hspell]
      rfl
    · constructor
      · intro h; cases h
      · rintro ⟨⟨ks, h1, _⟩, _⟩
        exact absurd h1 (i2 ks)
  · exact absurd i2 hcut

end Hfst.Ol
