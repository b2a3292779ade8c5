import Verif.Props.OlLoops
import Verif.Props.OlWalkGraph

/-!
# The search for loops in converted graphs
-/
namespace Hfst.Ol
open Hfst.Basic

/-- No transition of the graph reads a flag. -/
def NoFlags (g : Graph) : Prop := ∀ q, ∀ a ∈ g.arcs q, Flags.isDiacritic a.inp = false

section
variable {g : Graph} {table : List Sym} {K : Kinds}

theorem idx_epsilon (hT : TableOf g table) {x : Sym} (hx : x ∈ table) : table.idxOf x = 0 ↔ x = Basic.epsilon := by
  have hm : Basic.epsilon ∈ table := List.mem_of_getElem? hT.epsilon
  have h0 : table.idxOf Basic.epsilon = 0 := by
    obtain ⟨b1, c1⟩ := List.getElem?_eq_some_iff.mp hT.epsilon
    have := hT.nodup.idxOf_getElem 0 b1
    rwa [c1] at this
  constructor
  · intro h
    exact idx_inj hx hm (h.trans h0.symm)
  · rintro rfl
    exact h0

theorem path_to_run (hT : TableOf g table) (hK : K.orig = table.length) {q r : Nat} {l : List Arc} (h : GPath g q l r) :
    ∃ m, NRun K (netOf table g) q m r ∧ m.length = l.length ∧
      readBy m = ((l.map (·.inp)).filter fun x => decide (x ≠ Basic.epsilon)).map table.idxOf := by
  induction h with
  | nil => exact ⟨[], .nil, rfl, rfl⟩
  | @cons q r a l ha _ ih =>
    obtain ⟨m, h1, h2, h3⟩ := ih
    have hin := (hT.arcs _ _ ha).1
    have hmem : numArc table a ∈ (netOf table g).arcs q := List.mem_map.mpr ⟨a, ha, rfl⟩
    by_cases he : a.inp = Basic.epsilon
    · refine ⟨(numArc table a, none) :: m, .cons hmem (.inl ((idx_epsilon hT hin).mpr he)) h1, by simp [h2], ?_⟩
      rw [readBy_cons, h3, List.map_cons, List.filter_cons, if_neg (by simp [he])]
      rfl
    · refine ⟨(numArc table a, some (table.idxOf a.inp)) :: m, .cons hmem (.inl ?_) h1, by simp [h2], ?_⟩
      · show (if table.idxOf a.inp < K.orig then _ else _)
        rw [if_pos (by rw [hK]; exact List.idxOf_lt_length_of_mem hin)]
        rfl
      · rw [readBy_cons, h3, List.map_cons, List.filter_cons, if_pos (by simp [he])]
        rfl

theorem run_to_path (hT : TableOf g table) (hK : K.orig = table.length) (hF : ∀ q, ∀ a ∈ g.arcs q, ¬ K.Flag (table.idxOf a.inp))
    (hdef : K.al.default = noSymbol) {q r : Nat} {m : List (NArc × Option Nat)} (h : NRun K (netOf table g) q m r) :
    (∀ x ∈ readBy m, ∃ s, s ∈ table ∧ s ≠ Basic.epsilon ∧ x = table.idxOf s) → ∃ l, GPath g q l r ∧ l.length = m.length ∧
      readBy m = ((l.map (·.inp)).filter fun x => decide (x ≠ Basic.epsilon)).map table.idxOf := by
  induction h with
  | nil => exact fun _ => ⟨[], .nil, rfl, rfl⟩
  | @cons q r a c m ha htk _ ih =>
    intro hx
    rw [readBy_cons] at hx
    obtain ⟨l, h1, h2, h3⟩ := ih fun x hxm => hx x (List.mem_append_right _ hxm)
    obtain ⟨b, hb, rfl⟩ := List.mem_map.mp ha
    have hin := (hT.arcs _ _ hb).1
    refine ⟨b :: l, .cons hb h1, by simp [h2], ?_⟩
    rw [readBy_cons, h3, List.map_cons, List.filter_cons]
    cases c with
    | none =>
      have he : b.inp = Basic.epsilon := by
        rcases htk with h | h
        · exact (idx_epsilon hT hin).mp h
        · exact absurd h (hF q b hb)
      rw [if_neg (by simp [he])]
      rfl
    | some x =>
      obtain ⟨s, hs1, hs2, rfl⟩ := hx x (by simp)
      have hd : table.idxOf b.inp = table.idxOf s := by
        rcases htk with h | ⟨h4, h5, _⟩
        · have h : (if table.idxOf s < K.orig then table.idxOf b.inp = table.idxOf s else _) := h
          rwa [if_pos (by rw [hK]; exact List.idxOf_lt_length_of_mem hs1)] at h
        · exact absurd (h5.trans hdef) h4
      have he := idx_inj hin hs1 hd
      subst he
      rw [if_pos (by simp [hs2])]
      rfl

theorem filter_nil {c : List Arc} : ((c.map (·.inp)).filter fun x => decide (x ≠ Basic.epsilon)) = [] ↔ ∀ a ∈ c, a.inp = Basic.epsilon := by
  simp [List.filter_eq_nil_iff]

theorem map_prefix {f : Sym → Nat} {xs ys : List Sym} (hf : ∀ x ∈ xs, ∀ y ∈ ys, f x = f y → x = y) (h : xs.map f <+: ys.map f) : xs <+: ys := by
  induction xs generalizing ys with
  | nil => exact List.nil_prefix
  | cons x xs ih => cases ys with
    | nil => simp at h
    | cons y ys =>
      rw [List.map_cons, List.map_cons, List.cons_prefix_cons] at h
      rw [List.cons_prefix_cons]
      exact ⟨hf x (List.mem_cons_self ..) y (List.mem_cons_self ..) h.1,
        ih (fun a ha b hb => hf a (List.mem_cons_of_mem _ ha) b (List.mem_cons_of_mem _ hb)) h.2⟩

theorem GPath.inputs {q r : Nat} {l : List Arc} (h : GPath g q l r) : ∀ a ∈ l, ∃ s, a ∈ g.arcs s := by
  induction h with
  | nil => simp
  | cons ha _ ih =>
    intro a hm
    rcases List.mem_cons.mp hm with rfl | hm
    · exact ⟨_, ha⟩
    · exact ih a hm

/-- There is a loop in the tables if there is one in the graph. -/
theorem cyclic_iff (hT : TableOf g table) (hK : K.orig = table.length) (hF : ∀ q, ∀ a ∈ g.arcs q, ¬ K.Flag (table.idxOf a.inp))
    (hdef : K.al.default = noSymbol) {input : List Sym} (hi : ∀ x ∈ input, x ∈ table ∧ x ≠ Basic.epsilon) :
    Cyclic K (netOf table g) (input.map table.idxOf) ↔ LoopsOn g input := by
  constructor
  · rintro ⟨l, c, q, h1, h2, h3, h4, h5⟩
    obtain ⟨l', a1, a2, a3⟩ := run_to_path hT hK hF hdef h1 fun x hx => by
      obtain ⟨s, hs, rfl⟩ := List.mem_map.mp (h2.subset hx)
      exact ⟨s, (hi s hs).1, (hi s hs).2, rfl⟩
    obtain ⟨c', b1, b2, b3⟩ := run_to_path hT hK hF hdef h3 (by rw [h5]; simp)
    refine ⟨l', c', q, a1, ?_, b1, ?_, ?_⟩
    · rw [a3] at h2
      refine map_prefix (fun x hx y hy => ?_) h2
      obtain ⟨hx, _⟩ := List.mem_filter.mp hx
      obtain ⟨a, ha, rfl⟩ := List.mem_map.mp hx
      obtain ⟨s, hs⟩ := a1.inputs a ha
      exact idx_inj (hT.arcs _ _ hs).1 (hi y hy).1
    · rintro rfl
      exact h4 (List.length_eq_zero_iff.mp b2.symm)
    · rw [h5] at b3
      exact filter_nil.mp (List.map_eq_nil_iff.mp b3.symm)
  · rintro ⟨l, c, q, h1, h2, h3, h4, h5⟩
    obtain ⟨l', a1, a2, a3⟩ := path_to_run (K := K) hT hK h1
    obtain ⟨c', b1, b2, b3⟩ := path_to_run (K := K) hT hK h3
    refine ⟨l', c', q, a1, ?_, b1, ?_, ?_⟩
    · rw [a3]
      exact h2.map _
    · rintro rfl
      exact h4 (List.length_eq_zero_iff.mp b2.symm)
    · rw [b3, filter_nil.mpr h5]
      rfl

end

/-- The transducer made from a graph, with the input on the tape. -/
def Converted.reading (C : Converted) (weightOf : Nat → Int) (limit : Int) (input : List Sym) : Machine :=
  (C.machine weightOf limit).withInput (C.table.map asBytes) (input.map C.table.idxOf ++ [noSymbol])

/-- **C41.**  A graph without flags, insertion symbols and default symbols is converted; the input has only input symbols of the graph.  Then
the answer is right whenever the search ends, and it ends if the answer is no: a bound of the depth is the number of states times one
more than the number of input symbols.  Missing: that it ends if the answer is yes (`C41_endless_violated`), flags
(`C41_flags_violated`), and symbols that are not known (`C41_unknown_violated`). -/
theorem C41_partial (order : List Sym → List Sym) (ho : ∀ l, (order l).Perm l) {tooFull : Nat → Nat → Bool}
    (htoo : ∀ n, 0 < n → tooFull 0 n = false) {enc : Int → Nat} {weightOf : Nat → Int} {g : Graph}
    (hE : ∀ w, HasWeight g w → weightOf (enc w) = w ∧ enc w ≠ noIndex) (hg : WF g) (hb : ByteGraph g) (hins : NoInsertions g) (hfl : NoFlags g)
    (hdef : defaultSym ∉ g.alphabet ∧ ∀ q, ∀ a ∈ g.arcs q, a.inp ≠ defaultSym ∧ a.out ≠ defaultSym)
    {C : Converted} (hC : convert order tooFull enc g = .ok C) (hi : C.indices.length ≤ targetStart)
    (ht : C.transitions.length ≤ targetStart) (limit : Int) {input : List Sym}
    (hin : ∀ x ∈ input, x ≠ Basic.epsilon ∧ ∃ q, ∃ a ∈ g.arcs q, a.inp = x) (st : Flags.FdState) :
    (∀ fuel, infinitelyAmbiguous (C.reading weightOf limit input) fuel st = .ok true → LoopsOn g input) ∧
    (∀ fuel, infinitelyAmbiguous (C.reading weightOf limit input) fuel st = .ok false → ¬ LoopsOn g input) ∧
    (¬ LoopsOn g input → ∀ fuel, g.states.length * (input.length + 1) ≤ fuel →
      infinitelyAmbiguous (C.reading weightOf limit input) fuel st = .ok false) := by
  obtain ⟨pos, hU⟩ := convert_usable order ho htoo (weightOf := weightOf) hE hg hins hb (by
    rintro (h | ⟨q, a, ha, h⟩)
    · exact absurd h hdef.1
    · exact absurd h (hdef.2 q a ha).2) hC hi ht limit
  have hT := hU.tables
  have hd : (C.machine weightOf limit).alphabet.default = noSymbol := by
    rw [hU.default, if_neg]
    intro hm
    rcases hT.only _ hm with h | h | ⟨q, a, ha, h | h⟩
    · exact absurd h (by decide)
    · exact hdef.1 h
    · exact (hdef.2 q a ha).1 h
    · exact (hdef.2 q a ha).2 h
  have hnf : ∀ q, ∀ a ∈ g.arcs q, ¬ (C.machine weightOf limit).kinds.Flag (C.table.idxOf a.inp) := by
    intro q a ha hf
    obtain ⟨s, h1, h2⟩ := (hU.flags _).mp hf
    rw [idx_get (hT.arcs q a ha).1] at h1
    injection h1 with h1
    rw [← h1, hfl q a ha] at h2
    cases h2
  have hR : Represents (C.reading weightOf limit input) (C.inputs g) (netOf C.table g) pos := represents_with hU.represents _ _
  have hkinds : (C.reading weightOf limit input).kinds = (C.machine weightOf limit).kinds := by
    unfold Converted.reading Machine.withInput Machine.kinds
    have : (C.machine weightOf limit).alphabet.table = C.table.map asBytes := hU.alphabet
    dsimp only
    rw [← this]
  have hS : SymbolsOK (C.reading weightOf limit input).kinds (C.inputs g) (netOf C.table g) := by
    rw [hkinds]
    exact hU.symbols
  have hF : ∀ q < (netOf C.table g).size, ∀ a ∈ (netOf C.table g).arcs q, ¬ (C.reading weightOf limit input).kinds.Flag a.input := by
    intro q _ a ha
    obtain ⟨b, hb, rfl⟩ := List.mem_map.mp ha
    rw [hkinds]
    exact hnf q b hb
  have hmain := C41_tables_partial hR hS hU.injective hF hd (ks := input.map C.table.idxOf) (rest := []) (by
    intro x hx
    obtain ⟨s, hs, rfl⟩ := List.mem_map.mp hx
    obtain ⟨he, q, a, ha, rfl⟩ := hin s hs
    have hm := (hT.arcs q a ha).1
    have hlt := hU.inputs q a ha (hfl q a ha)
    rw [hkinds]
    refine ⟨⟨fun h0 => he ((idx_epsilon hT hm).mp h0), ?_, hnf q a ha, .inl hlt⟩, hlt⟩
    have h1 := hU.symbols.small
    have h2 := List.idxOf_lt_length_of_mem hm
    have h3 : (C.machine weightOf limit).kinds.al.table.length = C.table.length := by
      show (C.machine weightOf limit).alphabet.table.length = _
      rw [hU.alphabet, List.length_map]
    omega) rfl st
  have hiff : Repeats (C.reading weightOf limit input).kinds (netOf C.table g) st (input.map C.table.idxOf) ↔ LoopsOn g input := by
    rw [← cyclic_repeats hR.nonempty hR.closed hF st, hkinds]
    refine cyclic_iff hT rfl hnf hd ?_
    intro x hx
    obtain ⟨he, q, a, ha, rfl⟩ := hin x hx
    exact ⟨(hT.arcs q a ha).1, he⟩
  rw [hiff, List.length_map] at hmain
  exact hmain

end Hfst.Ol
