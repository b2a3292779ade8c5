import Verif.Props.OlConvertLookup
import Mathlib.Data.List.Sort

/-!
# Optimized lookup: examples of converted graphs, and what a lookup in them does not find
-/
namespace Hfst.Ol
open Hfst.Basic

/-- The order of strings. -/
def symLe : Sym → Sym → Bool
  | [], _ => true
  | _ :: _, [] => false
  | c :: s, d :: t => if c.toNat < d.toNat then true else if d.toNat < c.toNat then false else symLe s t

/-- The order of a set of strings. -/
def symOrder (l : List Sym) : List Sym := l.insertionSort fun x y => symLe x y = true

theorem symOrder_perm (l : List Sym) : (symOrder l).Perm l := List.perm_insertionSort _ l

/-- A part of the index table is not searched any more if it is filled to 85 percent. -/
def full85 (filled n : Nat) : Bool := decide (85 * n ≤ 100 * filled)

theorem full85_zero (n : Nat) (h : 0 < n) : full85 0 n = false := by
  unfold full85
  rw [decide_eq_false_iff_not]
  omega

/-- The bits of small weights. -/
def smallBits (w : Int) : Nat := w.toNat

/-- The weight of bits. -/
def smallWeight (n : Nat) : Int := n

/-- A graph with a flag, unknown and identity symbols, and an output symbol that is not an input symbol: `a` is read as `+N`, a symbol that
is not known is read as itself (with weight 2) or as `b`, and after that `b`s are read if the flag allows it. -/
def mixGraph : Graph where
  states := [[⟨1, "a".toList, "+N".toList, 1⟩, ⟨1, identity, identity, 2⟩, ⟨1, unknown, "b".toList, 3⟩, ⟨2, "@P.X.A@".toList, "@P.X.A@".toList, 0⟩],
    [⟨1, "b".toList, "b".toList, 1⟩], [⟨1, "@R.X.A@".toList, "@R.X.A@".toList, 0⟩, ⟨1, "@R.X.B@".toList, "@R.X.B@".toList, 0⟩]]
  finals := [(1, 4)]
  alphabet := [epsilon, unknown, identity, "a".toList, "+N".toList, "b".toList, "@P.X.A@".toList, "@R.X.A@".toList, "@R.X.B@".toList]

/-- What is made for `mixGraph`. -/
def mixMade : Converted := match convert symOrder full85 smallBits mixGraph with
  | .ok C => C
  | _ => ⟨[], [], [], 0, .empty⟩

theorem mix_convert : convert symOrder full85 smallBits mixGraph = .ok mixMade := by
  have h : (match convert symOrder full85 smallBits mixGraph with | .ok _ => true | _ => false) = true := by decide +kernel
  unfold mixMade
  split at h
  · rename_i C hC
    rw [hC]
  · cases h

/-- What holds for every transition of a graph can be tried out. -/
theorem all_arcs {g : Graph} {p : Nat → Arc → Prop} (h : ∀ x ∈ g.states.zipIdx, ∀ a ∈ x.1, p x.2 a) : ∀ q, ∀ a ∈ g.arcs q, p q a := by
  intro q a ha
  unfold Graph.arcs at ha
  cases hq : g.states[q]? with
  | none => rw [hq] at ha; cases ha
  | some l =>
    rw [hq] at ha
    exact h (l, q) (List.mem_zipIdx_iff_getElem?.mpr hq) a ha

theorem weights_of {g : Graph} {p : Int → Prop} (h1 : ∀ a ∈ g.states.flatten, p a.weight) (h2 : ∀ x ∈ g.finals, p x.2) :
    ∀ w, HasWeight g w → p w := by
  rintro w (⟨q, a, ha, rfl⟩ | ⟨q, h⟩)
  · exact h1 a (arcs_flatten ha)
  · exact h2 _ (mapGet_mem h)

theorem mix_wf : WF mixGraph := by
  refine ⟨by decide, all_arcs (p := fun _ a => a.target < mixGraph.states.length) (by decide +kernel), ?_⟩
  intro s w h
  exact (by decide : ∀ x ∈ mixGraph.finals, x.1 < mixGraph.states.length) _ (mapGet_mem h)

theorem mix_weights : ∀ w, HasWeight mixGraph w → smallWeight (smallBits w) = w ∧ smallBits w ≠ noIndex :=
  weights_of (by decide +kernel) (by decide +kernel)

theorem mix_insertions : NoInsertions mixGraph := all_arcs (p := fun _ a => isInsertion a.inp = false) (by decide +kernel)

theorem mix_bytes : ByteGraph mixGraph := by
  unfold ByteGraph ByteSym
  exact ⟨by decide +kernel, all_arcs (p := fun _ a => (∀ c ∈ a.inp, c.toNat < 256) ∧ ∀ c ∈ a.out, c.toNat < 256) (by decide +kernel)⟩

/-- `mixGraph` can be converted. -/
example : (∃ C, convert symOrder full85 smallBits mixGraph = .ok C ∧ C.table.length ≤ 65535 ∧ TableOf mixGraph C.table) ∨
    (convert symOrder full85 smallBits mixGraph = .throws ∧ ∃ table, TableOf mixGraph table ∧ 65535 < table.length) :=
  C38_total symOrder symOrder_perm full85_zero smallBits mix_wf mix_insertions

/-- The tables for `mixGraph` represent it. -/
example : TableOf mixGraph mixMade.table ∧ ∃ pos, Represents (mixMade.machine smallWeight (-1))
      ⟨mixMade.seen, IsRead mixGraph Basic.identity ∧ IsRead mixGraph Basic.unknown⟩ (netOf mixMade.table mixGraph) pos :=
  C38_partial symOrder symOrder_perm full85_zero mix_weights mix_wf mix_insertions mix_bytes
    (by
      rintro (h | ⟨q, a, ha, h⟩)
      · exact absurd h (by decide +kernel)
      · exact absurd h (all_arcs (p := fun _ a => a.out ≠ defaultSym) (by decide +kernel) q a ha))
    mix_convert (by decide +kernel) (by decide +kernel) (-1)

/-- A string of ASCII characters is a string of whole characters. -/
theorem ascii_chars : ∀ s : Bytes, (∀ c ∈ s, c ≤ 127) → Chars s
  | [], _ => .nil
  | c :: s, h => by
    refine .char (c := c) (x := []) (rest := s) ?_ (ascii_chars s fun d hd => h d (List.mem_cons_of_mem _ hd))
    have := h c (List.mem_cons_self ..)
    unfold Utf8.nByteUtf8
    rw [if_pos this]
    rfl

theorem mix_suitable : Suitable mixGraph := by
  refine ⟨mix_wf, ⟨all_arcs (p := fun _ a => a.inp ∈ mixGraph.alphabet ∧ a.out ∈ mixGraph.alphabet) (by decide +kernel),
    by decide +kernel, by decide +kernel, by decide +kernel⟩, mix_bytes, ?_, mix_insertions, by decide +kernel, ?_, ?_, ?_⟩
  · intro x hx
    have h := (by decide +kernel : ∀ x ∈ mixGraph.alphabet, x ≠ [] ∧ 0 ∉ asBytes x ∧ ∀ c ∈ asBytes x, c ≤ 127) x hx
    exact ⟨h.1, h.2.1, ascii_chars _ h.2.2⟩
  · exact all_arcs (p := fun _ a => (a.out = Basic.identity ∨ a.out = Basic.unknown → a.inp = Basic.identity) ∧
      (a.inp = Basic.identity → a.out = Basic.identity)) (by decide +kernel)
  · unfold Flags.NoEmptyValue
    decide +kernel
  · exact ⟨fun q => [3, 1, 2].getD q 0, all_arcs (p := fun q a => (a.inp = Basic.epsilon → [3, 1, 2].getD a.target 0 ≤ [3, 1, 2].getD q 0) ∧
      (Flags.isDiacritic a.inp = true → [3, 1, 2].getD a.target 0 < [3, 1, 2].getD q 0)) (by decide +kernel)⟩

theorem mix_input {s : Bytes} (h0 : 0 ∉ s) (hc : Chars s) (he : ¬ asBytes epsilon <:+: s)
    (hi : ∀ x ∈ mixGraph.alphabet, asBytes x <:+: s → x = "a".toList ∨ x = "b".toList) :
    TextInput (mixMade.machine smallWeight (-1)) (mixMade.inputs mixGraph) s ∧ InputsOnly mixGraph s := by
  refine ⟨⟨h0, hc, ?_, .inl ⟨fun _ => ⟨0, _, List.mem_cons_of_mem _ (List.mem_cons_self ..), rfl⟩,
    fun _ => ⟨0, _, List.mem_cons_of_mem _ (List.mem_cons_of_mem _ (List.mem_cons_self ..)), rfl⟩⟩⟩, ?_⟩
  · intro x hx
    have : (mixMade.machine smallWeight (-1)).alphabet.table[0]? = some (asBytes epsilon) := by decide +kernel
    rw [this] at hx
    injection hx with hx
    rw [← hx]
    exact he
  · intro x hx h
    rcases hi x hx h with rfl | rfl
    · exact ⟨0, _, List.mem_cons_self .., rfl⟩
    · exact ⟨1, _, List.mem_cons_self .., rfl⟩

/-- The lookup of `äb` in the converted graph after a lookup of `a`. -/
example : ∃ e S rs S' ks, Encoder.make (mixMade.table.map asBytes) mixMade.seen = .ok e ∧
      lookupMany (mixMade.machine smallWeight (-1)) 10 [[97]]
        ⟨mixMade.table.map asBytes, e, [], [], Flags.FdState.init mixMade.fd.numFeatures⟩ = .ok S ∧
      lookupText (mixMade.machine smallWeight (-1)) 10 [195, 164, 98] S = .ok (rs, S') ∧
      Reads mixMade.seen mixMade.table.length S.table [195, 164, 98] (some ks) S'.table ∧
      ∀ o, o ∈ rs ↔ ∃ l p, l.length < 5000 ∧ IsAnalysis mixGraph (ks.map fun k => asText ((S'.table[k]?).getD [])) l p ∧
        Flags.sIsValidString (flagsOf l) = true ∧ o = (p.1, p.2.map fun x => if x.2 = Basic.epsilon then [] else asBytes x.2) := by
  refine C61_partial symOrder symOrder_perm full85_zero mix_weights mix_suitable mix_convert (by decide +kernel) (by decide +kernel)
    (by decide +kernel) (by decide) ?_ (by decide) (by decide +kernel) [] []
  intro x hx
  rcases List.mem_cons.mp hx with rfl | hx
  · exact mix_input (by decide) (.char (c := 195) (x := [164]) (rest := [98]) (by decide) (.char (c := 98) (x := []) (by decide) .nil))
      (by decide +kernel) (by decide +kernel)
  · rw [List.mem_singleton.mp hx]
    exact mix_input (by decide) (.char (c := 97) (x := []) (by decide) .nil) (by decide +kernel) (by decide +kernel)

/-- The first lookup in a converted transducer: what it returns. -/
def firstLookup (C : Converted) (fuel : Nat) (s : Bytes) : Outcome (List (Int × List Bytes)) :=
  (Encoder.make (C.table.map asBytes) C.seen).bind fun e =>
    (lookupText (C.machine smallWeight (-1)) fuel s ⟨C.table.map asBytes, e, [], [], Flags.FdState.init C.fd.numFeatures⟩).bind fun r => .ok r.1

/-- Both lookups as above, with their results. -/
example : firstLookup mixMade 10 [195, 164, 98] = .ok [(7, [[195, 164], [98]]), (8, [[98], [98]])] ∧
    firstLookup mixMade 10 [97] = .ok [(5, [asBytes "+N".toList])] := by decide +kernel

/-! ## What is not found -/

/-- A graph that reads `a` as `+N`; unknown and identity symbols are in the alphabet, but are not read. -/
def tagGraph : Graph where
  states := [[⟨1, "a".toList, "+N".toList, 1⟩], []]
  finals := [(1, 0)]
  alphabet := [epsilon, unknown, identity, "a".toList, "+N".toList]

/-- A graph that reads `a` as `b`, and symbols that are not known as themselves or as `a`. -/
def outGraph : Graph where
  states := [[⟨1, "a".toList, "b".toList, 1⟩, ⟨1, identity, identity, 2⟩, ⟨1, unknown, "a".toList, 3⟩], []]
  finals := [(1, 0)]
  alphabet := [epsilon, unknown, identity, "a".toList, "b".toList]

/-- What is made for a graph. -/
def madeFor (g : Graph) : Converted := match convert symOrder full85 smallBits g with
  | .ok C => C
  | _ => ⟨[], [], [], 0, .empty⟩

theorem made_for {g : Graph} (h : (match convert symOrder full85 smallBits g with | .ok _ => true | _ => false) = true) :
    convert symOrder full85 smallBits g = .ok (madeFor g) := by
  unfold madeFor
  split at h
  · rename_i C hC
    rw [hC]
  · cases h

/-- Whether a graph is suitable can be tried out. -/
theorem suitable_of {g : Graph} (h0 : 0 < g.states.length) (h1 : ∀ x ∈ g.finals, x.1 < g.states.length)
    (h2 : ∀ x ∈ g.states.zipIdx, ∀ a ∈ x.1, a.target < g.states.length ∧ (a.inp ∈ g.alphabet ∧ a.out ∈ g.alphabet) ∧ isInsertion a.inp = false ∧
      ((a.out = Basic.identity ∨ a.out = Basic.unknown → a.inp = Basic.identity) ∧ (a.inp = Basic.identity → a.out = Basic.identity)) ∧
      a.inp ≠ Basic.epsilon ∧ Flags.isDiacritic a.inp = false)
    (h3 : epsilon ∈ g.alphabet ∧ unknown ∈ g.alphabet ∧ identity ∈ g.alphabet)
    (h4 : ∀ x ∈ g.alphabet, (∀ c ∈ x, c.toNat < 256) ∧ x ≠ [] ∧ 0 ∉ asBytes x ∧ (∀ c ∈ asBytes x, c ≤ 127) ∧ Flags.isDiacritic x = false)
    (h5 : defaultSym ∉ g.alphabet) : Suitable g := by
  have h2 := all_arcs (p := fun _ a => a.target < g.states.length ∧ (a.inp ∈ g.alphabet ∧ a.out ∈ g.alphabet) ∧ isInsertion a.inp = false ∧
      ((a.out = Basic.identity ∨ a.out = Basic.unknown → a.inp = Basic.identity) ∧ (a.inp = Basic.identity → a.out = Basic.identity)) ∧
      a.inp ≠ Basic.epsilon ∧ Flags.isDiacritic a.inp = false) h2
  refine ⟨⟨h0, fun q a ha => (h2 q a ha).1, fun s w h => h1 _ (mapGet_mem h)⟩, ⟨fun q a ha => (h2 q a ha).2.1, h3.1, h3.2.1, h3.2.2⟩,
    ⟨fun x hx => (h4 x hx).1, fun q a ha => ⟨(h4 _ (h2 q a ha).2.1.1).1, (h4 _ (h2 q a ha).2.1.2).1⟩⟩,
    fun x hx => ⟨(h4 x hx).2.1, (h4 x hx).2.2.1, ascii_chars _ (h4 x hx).2.2.2.1⟩, fun q a ha => (h2 q a ha).2.2.1, h5,
    fun q a ha => (h2 q a ha).2.2.2.1, ?_, ⟨fun _ => 0, fun q a ha => ⟨fun _ => Nat.le_refl _, fun h => ?_⟩⟩⟩
  · intro x hx hd
    rw [(h4 x hx).2.2.2.2] at hd
    cases hd
  · rw [(h2 q a ha).2.2.2.2.2] at h
    cases h

/-- **C61 does not hold for unknown symbols** if the unknown symbol (or identity) is in the alphabet but is not read: for a graph that reads
`a` as `+N` the lookup of `x`, which should find nothing, reads outside the index table. -/
theorem C61_unknown_violated : ∃ (g : Graph) (C : Converted) (s : Bytes), Suitable g ∧ convert symOrder full85 smallBits g = .ok C ∧
    0 ∉ s ∧ Chars s ∧ (∀ x ∈ g.alphabet, ¬ asBytes x <:+: s) ∧ (∀ l p, ¬ IsAnalysis g [asText s] l p) ∧
    firstLookup C 10 s = .undefined := by
  refine ⟨tagGraph, madeFor tagGraph, [120], suitable_of (by decide) (by decide) (by decide +kernel) (by decide +kernel) (by decide +kernel)
    (by decide +kernel), made_for (by decide +kernel), by decide, ascii_chars _ (by decide), by decide +kernel, ?_, by decide +kernel⟩
  rintro l p ⟨q, f, h1, h2, h3, _⟩
  cases h1 with
  | nil => cases h3
  | @cons _ _ x l hx hf hr =>
    obtain ⟨a, c⟩ := x
    have ha : a = ⟨1, "a".toList, "+N".toList, 1⟩ := List.mem_singleton.mp hx
    subst ha
    cases c with
    | none =>
      rcases hf with h | h
      · exact absurd h (by decide)
      · exact absurd h (by decide)
    | some c =>
      rcases hf with h | ⟨h | h, _⟩
      · have h3 : c :: inputOf l = [asText [120]] := h3
        injection h3 with h3
        rw [h3] at h
        exact absurd h (by decide)
      · exact absurd h (by decide)
      · exact absurd h (by decide)

/-- **C61 does not hold for symbols that are only output symbols**: in a graph that reads `a` as `b` and unknown symbols as themselves, the
symbol `b` is known, and so there is no analysis of it, but the lookup takes it for unknown and returns it. -/
theorem C61_output_violated : ∃ (g : Graph) (C : Converted) (s : Bytes), Suitable g ∧ convert symOrder full85 smallBits g = .ok C ∧
    TextInput (C.machine smallWeight (-1)) (C.inputs g) s ∧ asText s ∈ g.alphabet ∧ (∀ l p, ¬ IsAnalysis g [asText s] l p) ∧
    firstLookup C 10 s = .ok [(2, [s]), (3, [asBytes "a".toList])] := by
  refine ⟨outGraph, madeFor outGraph, [98], suitable_of (by decide) (by decide) (by decide +kernel) (by decide +kernel) (by decide +kernel)
    (by decide +kernel), made_for (by decide +kernel), ⟨by decide, ascii_chars _ (by decide), ?_,
    .inl ⟨fun _ => ⟨0, _, List.mem_cons_of_mem _ (List.mem_cons_self ..), rfl⟩,
      fun _ => ⟨0, _, List.mem_cons_of_mem _ (List.mem_cons_of_mem _ (List.mem_cons_self ..)), rfl⟩⟩⟩, by decide +kernel, ?_, by decide +kernel⟩
  · intro x hx
    have : ((madeFor outGraph).machine smallWeight (-1)).alphabet.table[0]? = some (asBytes epsilon) := by decide +kernel
    rw [this] at hx
    injection hx with hx
    rw [← hx]
    decide +kernel
  · rintro l p ⟨q, f, h1, h2, h3, _⟩
    cases h1 with
    | nil => cases h3
    | @cons _ _ x l hx hf hr =>
      obtain ⟨a, c⟩ := x
      have key : ∀ a ∈ outGraph.arcs 0, (a.inp ≠ epsilon ∧ Flags.isDiacritic a.inp = false) ∧ a.inp ≠ asText [98] := by decide +kernel
      obtain ⟨⟨k1, k2⟩, k3⟩ := key a hx
      cases c with
      | none =>
        rcases hf with h | h
        · exact k1 h
        · rw [k2] at h
          cases h
      | some c =>
        have h3 : c :: inputOf l = [asText [98]] := h3
        injection h3 with h3
        subst h3
        rcases hf with h | ⟨_, h⟩
        · exact k3 h
        · exact h (by decide +kernel)

end Hfst.Ol
