import Verif.Props.OlSpellMain
import Verif.Props.OlConvertDemo

/-!
# The spell checker with converted transducers (C42)
-/
namespace Hfst.Ol
open Hfst.Basic

theorem default_read {g : Graph} (hg : Suitable g) : IsRead g defaultSym := by
  rintro (h | ⟨q, a, ha, h⟩)
  · exact absurd h hg.noDefault
  · exact absurd (h ▸ (hg.alpha.arcs q a ha).2) hg.noDefault

section
variable {g : Graph} {M : Machine} {table : List Sym} {n : Inputs} {pos : Nat → Nat}

theorem Usable.searched (hU : Usable g M table n pos) (hg : Suitable g) : Searched M n (netOf table g) pos := by
  refine ⟨hU.represents, hU.symbols, hU.injective, ?_⟩
  rw [hU.default, if_neg]
  exact fun hd => hg.noDefault (hU.table_alphabet hg.alpha hd)

theorem Usable.setting (hU : Usable g M table n pos) (hg : Suitable g) (horig : M.orig = table.length) :
    Setting g M table n pos (table.map asBytes) := by
  refine ⟨hU, horig, hg.alpha, fun x hx => hg.bytes.1 x (hU.table_alphabet hg.alpha hx), fun hd => hg.noDefault (hU.table_alphabet hg.alpha hd),
    ?_, by rw [← horig]; exact hU.symbols.inputs, [], by rw [List.append_nil]⟩
  have h : M.alphabet.table.length ≤ noSymbol := hU.symbols.small
  rw [hU.alphabet, List.length_map] at h
  exact h

theorem Usable.kinds_eq (hU : Usable g M table n pos) : kindsOf M (table.map asBytes) = M.kinds := by
  unfold kindsOf Machine.kinds Machine.withInput
  dsimp only
  rw [← hU.alphabet]

/-- No cycle of a graph reads nothing. -/
def NoEmptyCycle (g : Graph) : Prop :=
  ∃ rank : Nat → Nat, ∀ q, ∀ a ∈ g.arcs q, a.inp = Basic.epsilon ∨ Flags.isDiacritic a.inp = true → rank a.target < rank q

theorem Usable.noFreeCycle (hU : Usable g M table n pos) (hg : Suitable g) (horig : M.orig = table.length) (h : NoEmptyCycle g) :
    NoFreeCycle M.kinds (netOf table g) := by
  obtain ⟨rank, hr⟩ := h
  refine ⟨rank, fun q _ A hA hf => ?_⟩
  obtain ⟨a, ha, rfl⟩ := List.mem_map.mp hA
  rw [← hU.kinds_eq] at hf
  exact hr q a ha (((hU.setting hg horig).free ha).mp hf)

/-- The symbols that the string is read as are input symbols. -/
theorem spells_tokens {s : Bytes} {other : Nat} {ks : List Nat} {table : List Bytes} {n : Nat} (h : Spells n table other s ks) (ho : other = noSymbol)
    (h0 : ∀ x, table[0]? = some x → ¬ x <:+: s) : ∀ k ∈ ks, k ≠ 0 ∧ k < table.length ∧ k < n := by
  induction h with
  | done => intro k hk; cases hk
  | @known x rest k ks hl _ ih =>
    intro j hj
    rcases List.mem_cons.mp hj with rfl | hj
    · have h1 := (List.getElem?_eq_some_iff.mp hl.knows.2).1
      refine ⟨?_, h1, ?_⟩
      · rintro rfl
        exact h0 x hl.knows.2 hl.starts.isInfix
      · rcases hl.knows.1 with h2 | h2
        · exact h2
        · omega
    · exact ih (fun y hy hyr => h0 y hy (hyr.trans (List.suffix_append _ _).isInfix)) j hj
  | other h => exact absurd ho h

end

/-- **C42, checking in a converted transducer**: the word is accepted exactly if it can be read as input symbols of the lexicon that a run of the
lexicon reads, and the flags of the run allow it.  Missing: words with characters that are not input symbols of the lexicon are refused even if
the lexicon accepts unknown symbols. -/
theorem C42_graph_partial (order : List Sym → List Sym) (ho : ∀ l, (order l).Perm l) {tooFull : Nat → Nat → Bool}
    (htoo : ∀ n, 0 < n → tooFull 0 n = false) {enc : Int → Nat} {weightOf : Nat → Int} {g : Graph}
    (hE : ∀ w, HasWeight g w → weightOf (enc w) = w ∧ enc w ≠ noIndex) (hg : Suitable g) (hcycle : NoEmptyCycle g) {C : Converted}
    (hC : convert order tooFull enc g = .ok C) (hi : C.indices.length ≤ targetStart) (ht : C.transitions.length ≤ targetStart)
    (hsize : C.table.length ≤ 32767) {limit : Int} {M : Machine} {S : Speller} (hS : Speller.make M (C.machine weightOf limit) = .ok S)
    {s : Bytes} (heps : ¬ asBytes Basic.epsilon <:+: s) :
    ∃ e fuel₀ b, Encoder.make (C.table.map asBytes) C.seen = .ok e ∧ (∀ fuel ≥ fuel₀, S.check fuel e s = .ok b) ∧
      (b = true ↔ ∃ ks l p, Spells C.seen (C.table.map asBytes) noSymbol s ks ∧
        IsAnalysis g (ks.map fun k => asText (((C.table.map asBytes)[k]?).getD [])) l p ∧ Flags.sIsValidString (flagsOf l) = true) := by
  obtain ⟨pos, hU⟩ := convert_usable order ho htoo (weightOf := weightOf) hE hg.wf hg.noInsertions hg.bytes (default_read hg) hC hi ht limit
  have horig : (C.machine weightOf limit).orig = C.table.length := rfl
  have hn : (C.inputs g).count ≤ C.table.length := hU.symbols.inputs
  have hT := hU.textOK hg horig hn
  have hset := hU.setting hg horig
  have h0 : ∀ x, (C.machine weightOf limit).alphabet.table[0]? = some x → ¬ x <:+: s := by
    intro x hx
    rw [hU.alphabet, List.getElem?_map, hU.tables.epsilon] at hx
    injection hx with hx
    rw [← hx]
    exact heps
  have hnames : ∀ x ∈ (C.machine weightOf limit).alphabet.table, x ≠ [] ∧ 0 ∉ x := fun x hx => ⟨(hT.symbols x hx).1, (hT.symbols x hx).2.1⟩
  have hn' : (C.inputs g).count ≤ (C.machine weightOf limit).alphabet.table.length := by rw [hU.alphabet, List.length_map]; exact hn
  obtain ⟨e, he, _⟩ := make_knows hn' hnames
  have hplain : ∀ k < (C.inputs g).count, k ≠ 0 → ¬ (C.machine weightOf limit).kinds.Flag k := by
    intro k hk hk0 hflag
    obtain ⟨x, hx, hd⟩ := (hU.flags k).mp hflag
    rw [(hU.read k (by omega) hk x hx).1] at hd
    cases hd
  obtain ⟨fuel₀, b, h1, h2⟩ := C42_check_partial hS (hU.searched hg) (hU.noFreeCycle hg horig hcycle) hn' hnames he (s := s)
    ⟨fun ks hks k hk => ⟨(spells_tokens hks rfl h0 k hk).1, hplain k (spells_tokens hks rfl h0 k hk).2.2 (spells_tokens hks rfl h0 k hk).1⟩,
      fun h => absurd rfl h⟩
  rw [hU.alphabet] at he h2
  refine ⟨e, fuel₀, b, he, h1, ?_⟩
  rw [h2]
  have hvals : ∀ x ∈ C.table, Flags.NoEmptyValue x := fun x hx => hg.values x (hU.table_alphabet hset.alpha hx)
  have hflags : ∀ {L : List (NArc × Option Nat)} {l : List Step} {q : Nat}, Run g 0 l q → List.Forall₂ (SameStep C.table (C.table.map asBytes)) L l →
      (∀ x ∈ readBy L, Token C.table (C.inputs g).count (C.table.map asBytes) x) →
      C.fd.passes (Flags.FdState.init C.fd.numFeatures) (L.map (·.1.input)) = some (Flags.sIsValidString (flagsOf l)) := by
    intro L l q h1 h2 h3
    obtain ⟨f1, f2⟩ := hset.flags L l h1 h2 h3
    rw [← f1, valid_filter]
    exact passes_valid (convert_flags hC) hU.tables.epsilon hsize hvals f2
  have htok : ∀ {ks}, Spells C.seen (C.table.map asBytes) noSymbol s ks → ∀ k ∈ ks, Token C.table (C.inputs g).count (C.table.map asBytes) k := by
    intro ks hks k hk
    obtain ⟨a1, a2, a3⟩ := spells_tokens hks rfl (by rw [← hU.alphabet]; exact h0) k hk
    exact ⟨a1, a2, .inl a3⟩
  constructor
  · rintro ⟨ks, hks, L, q, w, r1, r2, r3, r4⟩
    have hk' : ∀ x ∈ readBy L, Token C.table (C.inputs g).count (C.table.map asBytes) x := by rw [r3]; exact htok hks
    obtain ⟨l, b1, b2⟩ := hset.run_graph L (by rw [hU.kinds_eq]; exact r1) hk'
    have r4 : C.fd.passes (Flags.FdState.init C.fd.numFeatures) (L.map (·.1.input)) = some true := r4
    have hv := hflags b1 b2 hk'
    rw [r4] at hv
    injection hv with hv
    refine ⟨ks, l, _, hks, ⟨q, w, b1, r2, ?_, rfl⟩, hv.symm⟩
    rw [same_read b2, r3]
    rfl
  · rintro ⟨ks, l, p, hks, ⟨q, w, a1, a2, a3, _⟩, hv⟩
    obtain ⟨L, b1, b2, b3⟩ := hset.run_net l a1 a3 (htok hks)
    have hk' : ∀ x ∈ readBy L, Token C.table (C.inputs g).count (C.table.map asBytes) x := by rw [b2]; exact htok hks
    rw [hU.kinds_eq] at b1
    refine ⟨ks, hks, L, q, w, b1, a2, b2, ?_⟩
    show C.fd.passes (Flags.FdState.init C.fd.numFeatures) (L.map (·.1.input)) = some true
    rw [hflags a1 b3 hk', hv]

end Hfst.Ol
