import Verif.Props.OlExtract
import Verif.Props.OlConvertLookup
import Verif.Props.OlConvertDemo

/-!
# Walking through the tables made for a graph
-/
namespace Hfst.Ol
open Hfst.Basic

/-- Every symbol of the graph except epsilon and flags is read by some transition, and there are no insertion symbols. -/
structure AllRead (g : Graph) : Prop where
  read : ∀ x, (x ∈ g.alphabet ∨ ∃ q, ∃ a ∈ g.arcs q, a.inp = x ∨ a.out = x) →
    x = Basic.epsilon ∨ Flags.isDiacritic x = true ∨ ∃ q, ∃ a ∈ g.arcs q, a.inp = x
  plain : ∀ x, (x ∈ g.alphabet ∨ ∃ q, ∃ a ∈ g.arcs q, a.inp = x ∨ a.out = x) → isInsertion x = false

theorem AllRead.noInsertions {g : Graph} (h : AllRead g) : NoInsertions g := fun q a ha => h.plain _ (.inr ⟨q, a, ha, .inl rfl⟩)

theorem AllRead.isRead {g : Graph} (h : AllRead g) {x : Sym} (h1 : x ≠ Basic.epsilon) (h2 : Flags.isDiacritic x = false) : IsRead g x := by
  intro hx
  have : x ∈ g.alphabet ∨ ∃ q, ∃ a ∈ g.arcs q, a.inp = x ∨ a.out = x := by
    rcases hx with hx | ⟨q, a, ha, hx⟩
    · exact .inl hx
    · exact .inr ⟨q, a, ha, .inr hx⟩
  rcases h.read x this with h3 | h3 | h3
  · exact absurd h3 h1
  · rw [h2] at h3
    cases h3
  · exact h3

section
variable {g : Graph} {M : Machine} {table : List Sym} {n : Inputs} {pos : Nat → Nat}

theorem Usable.bytes (h : Usable g M table n pos) (hb : ByteGraph g) {x : Sym} (hx : x ∈ table) : ByteSym x := by
  rcases h.tables.only x hx with rfl | h1 | ⟨q, a, ha, h1⟩
  · unfold ByteSym
    decide
  · exact hb.1 x h1
  · rcases h1 with rfl | rfl
    · exact (hb.2 q a ha).1
    · exact (hb.2 q a ha).2

theorem Usable.walkable' (h : Usable g M table n pos) (hr : AllRead g) (hb : ByteGraph g) (hsmall : table.length ≤ noSymbol) :
    Walkable M n (netOf table g) pos table.length where
  marker := h.marker
  sorted := by
    intro i t t' h1 h2 h3
    refine h.sorted i t t' h1 h2 ?_ ?_
    · rintro h4
      rw [h4] at h3
      obtain ⟨s, h5, _⟩ := (h.flags _).mp h3
      have := (List.getElem?_eq_some_iff.mp h5).1
      omega
    · rintro h4
      rw [h4] at h3
      obtain ⟨s, h5, h6⟩ := (h.flags _).mp h3
      rw [h.tables.epsilon] at h5
      injection h5 with h5
      rw [← h5] at h6
      exact absurd h6 (by decide)
  symbol := by
    intro x hx
    by_cases h0 : x = 0
    · exact .inl h0
    · right
      have hget := List.getElem?_eq_getElem hx
      have hmem : table[x] ∈ table := List.getElem_mem hx
      have hidx : table.idxOf table[x] = x := h.tables.nodup.idxOf_getElem x hx
      have hne : table[x] ≠ Basic.epsilon := by
        intro he
        have := h.tables.epsilon
        rw [← he] at this
        obtain ⟨h1, h2⟩ := List.getElem?_eq_some_iff.mp this
        exact h0 ((List.Nodup.getElem_inj_iff h.tables.nodup).mp h2).symm
      by_cases hd : Flags.isDiacritic table[x] = true
      · exact .inl ((h.flags x).mpr ⟨_, hget, hd⟩)
      · right
        refine ⟨h0, by omega, ?_, .inl ?_⟩
        · rintro hf
          obtain ⟨s, h1, h2⟩ := (h.flags x).mp hf
          rw [hget] at h1
          injection h1 with h1
          rw [← h1] at h2
          exact hd h2
        · have hread : ∃ q, ∃ a ∈ g.arcs q, a.inp = table[x] := by
            rcases h.tables.only _ hmem with h1 | h1
            · exact absurd h1 hne
            · rcases hr.read _ h1 with h2 | h2 | h2
              · exact absurd h2 hne
              · exact absurd h2 hd
              · exact h2
          obtain ⟨q, a, ha, he⟩ := hread
          have := h.inputs q a ha (by rw [he]; simpa using hd)
          rw [he, hidx] at this
          exact this
  insertion := by
    intro x s hs
    rw [h.alphabet, List.getElem?_map] at hs
    cases hx : table[x]? with
    | none => rw [hx] at hs; cases hs
    | some y =>
      rw [hx] at hs
      injection hs with hs
      have hy := List.mem_of_getElem? hx
      rw [← hs, text_bytes (h.bytes hb hy)]
      rcases h.tables.only _ hy with rfl | h1
      · decide
      · exact hr.plain _ h1
  input := by
    intro q _ a ha
    obtain ⟨b, hb, rfl⟩ := List.mem_map.mp ha
    exact List.idxOf_lt_length_of_mem (h.tables.arcs q b hb).1

theorem Usable.walkable (h : Usable g M table n pos) (hr : AllRead g) (hb : ByteGraph g) :
    Walkable M n (netOf table g) pos table.length := by
  have hsmall : table.length ≤ noSymbol := by
    have : M.alphabet.table.length ≤ noSymbol := h.symbols.small
    rwa [h.alphabet, List.length_map] at this
  exact h.walkable' hr hb hsmall

theorem Usable.apart (h : Usable g M table n pos) : Apart (netOf table g) pos := h.injective

theorem Usable.name (h : Usable g M table n pos) (hb : ByteGraph g) {x : Sym} (hx : x ∈ table) : M.name (table.idxOf x) = x := by
  unfold Machine.name
  rw [h.alphabet, List.getElem?_map, idx_get hx]
  exact text_bytes (h.bytes hb hx)

theorem path_net : ∀ {l : List NArc} {q r : Nat}, NPath (netOf table g) q l r → ∃ L, l = L.map (numArc table) ∧ GPath g q L r
  | [], _, _, .nil => ⟨[], rfl, .nil⟩
  | _ :: _, _, _, .cons ha hl => by
    obtain ⟨a, ha', rfl⟩ := List.mem_map.mp ha
    obtain ⟨L, rfl, hL⟩ := path_net hl
    exact ⟨a :: L, rfl, .cons ha' hL⟩

theorem net_path : ∀ {L : List Arc} {q r : Nat}, GPath g q L r → NPath (netOf table g) q (L.map (numArc table)) r
  | [], _, _, .nil => .nil
  | _ :: _, _, _, .cons ha hl => .cons (List.mem_map_of_mem ha) (net_path hl)

theorem GPath.arcs : ∀ {L : List Arc} {q r : Nat}, GPath g q L r → ∀ a ∈ L, ∃ s, a ∈ g.arcs s
  | [], _, _, .nil => by simp
  | _ :: _, _, _, .cons ha hl => by
    intro b hb
    rcases List.mem_cons.mp hb with rfl | hb
    · exact ⟨_, ha⟩
    · exact hl.arcs b hb

theorem numArc_weight {L : List Arc} : pathWeight (L.map (numArc table)) = (L.map (·.weight)).sum := by
  unfold pathWeight
  rw [List.map_map]
  rfl

theorem path_iff {q r : Nat} {l : List (Sym × Sym)} {w : Int} :
    Path g q l w r ↔ ∃ L, GPath g q L r ∧ l = L.map (fun a => (a.inp, a.out)) ∧ w = (L.map (·.weight)).sum := by
  constructor
  · intro h
    induction h with
    | nil => exact ⟨[], .nil, rfl, rfl⟩
    | cons ha _ ih =>
      obtain ⟨L, h1, rfl, rfl⟩ := ih
      exact ⟨_ :: L, .cons ha h1, rfl, rfl⟩
  · rintro ⟨L, h1, rfl, rfl⟩
    induction h1 with
    | nil => exact .nil _
    | cons ha _ ih =>
      rw [List.map_cons, List.map_cons, List.sum_cons]
      exact .cons ha ih

end

/-- **C40.**  If every symbol of the graph except epsilon and flags is read by some transition, then enumerating the transitions of a state
of the converted transducer reads nothing outside the tables, and gives just the transitions of the state.  Missing: graphs that have
other symbols, because `C40_violated`. -/
theorem C40_partial (order : List Sym → List Sym) (ho : ∀ l, (order l).Perm l) {tooFull : Nat → Nat → Bool}
    (htoo : ∀ n, 0 < n → tooFull 0 n = false) {enc : Int → Nat} {weightOf : Nat → Int} {g : Graph}
    (hE : ∀ w, HasWeight g w → weightOf (enc w) = w ∧ enc w ≠ noIndex) (hg : WF g) (hb : ByteGraph g) (hr : AllRead g) {C : Converted}
    (hC : convert order tooFull enc g = .ok C) (hi : C.indices.length ≤ targetStart) (ht : C.transitions.length ≤ targetStart) (limit : Int) :
    ∃ pos : Nat → Nat, pos 0 = 0 ∧ ∀ q < g.states.length, ∃ l, transitionsFrom (C.machine weightOf limit) C.table.length (pos q) = .ok l ∧
      (∀ k ∈ l, ∃ a ∈ g.arcs q, ∃ t, targetStart ≤ k ∧ C.transitions[k - targetStart]? = some t ∧
        C.table[t.input]? = some a.inp ∧ C.table[t.output]? = some a.out ∧ t.target = pos a.target ∧ weightOf t.weight = a.weight) ∧
      (∀ a ∈ g.arcs q, ∃ k ∈ l, ∃ t, targetStart ≤ k ∧ C.transitions[k - targetStart]? = some t ∧
        C.table[t.input]? = some a.inp ∧ C.table[t.output]? = some a.out ∧ t.target = pos a.target ∧ weightOf t.weight = a.weight) := by
  obtain ⟨pos, hU⟩ := convert_usable order ho htoo (weightOf := weightOf) hE hg hr.noInsertions hb (hr.isRead (by decide) (by decide)) hC hi ht limit
  refine ⟨pos, hU.represents.start, fun q hq => ?_⟩
  obtain ⟨l, h1, h2, h3⟩ := transitionsFrom_ok hU.represents hU.symbols (hU.walkable hr hb) hq
  have key : ∀ {k : Nat} {a : Arc}, a ∈ g.arcs q →
      (∃ t, targetStart ≤ k ∧ (C.machine weightOf limit).transitions[k - targetStart]? = some t ∧ IsEntry (C.machine weightOf limit) pos t (numArc C.table a)) →
      ∃ t, targetStart ≤ k ∧ C.transitions[k - targetStart]? = some t ∧
        C.table[t.input]? = some a.inp ∧ C.table[t.output]? = some a.out ∧ t.target = pos a.target ∧ weightOf t.weight = a.weight := by
    rintro k a ha ⟨t, g1, g2, g3, g4, g5, g6⟩
    refine ⟨t, g1, g2, ?_, ?_, g5, g6⟩
    · rw [g3]
      exact idx_get (hU.tables.arcs q a ha).1
    · rw [g4]
      exact idx_get (hU.tables.arcs q a ha).2
  refine ⟨l, h1, ?_, ?_⟩
  · intro k hk
    obtain ⟨A, hA, ht⟩ := h2 k hk
    obtain ⟨a, ha, rfl⟩ := List.mem_map.mp hA
    exact ⟨a, ha, key ha ht⟩
  · intro a ha
    obtain ⟨k, hk, ht⟩ := h3 _ (List.mem_map_of_mem ha)
    exact ⟨k, hk, key ha ht⟩

/-- **C62.**  If every symbol of the graph except epsilon and flags is read by some transition, then converting the graph to an
optimized-lookup transducer and back gives a graph that has the same alphabet and accepts the same with the same weights.  Missing: graphs
that have other symbols, because `C40_violated`. -/
theorem C62_partial (order : List Sym → List Sym) (ho : ∀ l, (order l).Perm l) {tooFull : Nat → Nat → Bool}
    (htoo : ∀ n, 0 < n → tooFull 0 n = false) {enc : Int → Nat} {weightOf : Nat → Int} {g : Graph}
    (hE : ∀ w, HasWeight g w → weightOf (enc w) = w ∧ enc w ≠ noIndex) (hg : WF g) (ha : AlphaOK g) (hb : ByteGraph g) (hr : AllRead g)
    {C : Converted} (hC : convert order tooFull enc g = .ok C) (hi : C.indices.length ≤ targetStart)
    (ht : C.transitions.length ≤ targetStart) (limit : Int) {fuel : Nat} (hf : g.states.length < fuel) :
    ∃ g', toBasic (C.machine weightOf limit) C.table.length fuel = .ok g' ∧ (∀ x, x ∈ g'.alphabet ↔ x ∈ g.alphabet) ∧
      ∀ l w, Accepts g' l w ↔ Accepts g l w := by
  obtain ⟨pos, hU⟩ := convert_usable order ho htoo (weightOf := weightOf) hE hg hr.noInsertions hb (hr.isRead (by decide) (by decide)) hC hi ht limit
  obtain ⟨g', h1, h2, h3⟩ := toBasic_ok hU.represents hU.symbols (hU.walkable hr hb) hU.apart hf
  refine ⟨g', h1, fun x => ?_, fun l w => ?_⟩
  · rw [h2, hU.alphabet, List.map_map]
    have hmap : C.table.map (asText ∘ asBytes) = C.table := by
      conv => rhs; rw [← List.map_id C.table]
      exact List.map_congr_left fun y hy => text_bytes (hU.bytes hb hy)
    rw [hmap]
    constructor
    · rintro (h | h)
      · have : x = epsilon ∨ x = unknown ∨ x = identity := by
          revert h
          show x ∈ [epsilon, unknown, identity] → _
          simp
        rcases this with rfl | rfl | rfl
        · exact ha.eps
        · exact ha.unk
        · exact ha.idn
      · rcases hU.tables.only x h with rfl | h | ⟨q, a, haq, rfl | rfl⟩
        · exact ha.eps
        · exact h
        · exact (ha.arcs q a haq).1
        · exact (ha.arcs q a haq).2
    · exact fun h => .inr (hU.tables.alphabet x h)
  · have hname : ∀ {q r : Nat} {L : List Arc}, GPath g q L r →
        (L.map (numArc C.table)).map (fun a => ((C.machine weightOf limit).name a.input, (C.machine weightOf limit).name a.output)) =
          L.map fun a => (a.inp, a.out) := by
      intro q r L hL
      rw [List.map_map]
      apply List.map_congr_left
      intro a haL
      obtain ⟨s, hs⟩ := hL.arcs a haL
      obtain ⟨k1, k2⟩ := hU.tables.arcs s a hs
      show ((C.machine weightOf limit).name (C.table.idxOf a.inp), (C.machine weightOf limit).name (C.table.idxOf a.out)) = _
      rw [hU.name hb k1, hU.name hb k2]
    rw [h3]
    constructor
    · rintro ⟨A, q, f, g1, g2, rfl, rfl⟩
      obtain ⟨L, rfl, hL⟩ := path_net g1
      exact ⟨q, _, f, path_iff.mpr ⟨L, hL, hname hL, rfl⟩, g2, by rw [numArc_weight]⟩
    · rintro ⟨q, v, f, g1, g2, rfl⟩
      obtain ⟨L, hL, rfl, rfl⟩ := path_iff.mp g1
      exact ⟨_, q, f, net_path hL, g2, (hname hL).symm, by rw [numArc_weight]⟩

/-- **C43.**  If every symbol of the graph except epsilon and flags is read by some transition, and there is a cycle limit or the graph has
no cycles, then extracting the paths of the converted transducer ends, reads nothing outside the tables, and reports just the non-empty paths that may be followed, each with its
weight and symbols and whether it is accepted, as long as the caller goes on.  (`fuel` bounds the depth of the search.)  Missing: the
empty path (`C43_violated`) and graphs that have other symbols (`C40_violated`). -/
theorem C43_partial (order : List Sym → List Sym) (ho : ∀ l, (order l).Perm l) {tooFull : Nat → Nat → Bool}
    (htoo : ∀ n, 0 < n → tooFull 0 n = false) {enc : Int → Nat} {weightOf : Nat → Int} {g : Graph}
    (hE : ∀ w, HasWeight g w → weightOf (enc w) = w ∧ enc w ≠ noIndex) (hg : WF g) (hb : ByteGraph g) (hr : AllRead g)
    {C : Converted} (hC : convert order tooFull enc g = .ok C) (hi : C.indices.length ≤ targetStart)
    (ht : C.transitions.length ≤ targetStart) (limit : Int) {cycles : Int} {obey leaveOut : Bool} (hl : leaveOut = true → obey = true)
    (hv : obey = true → C.table.length ≤ 32767 ∧ ∀ x ∈ C.table, Flags.NoEmptyValue x) {fuel : Nat}
    (hf : (0 ≤ cycles ∧ cycles < 65535 ∧ g.states.length * (cycles.toNat + 1) < fuel) ∨
      (cycles < 0 ∧ ∃ rank : Nat → Nat, (∀ q, ∀ a ∈ g.arcs q, rank a.target < rank q) ∧ rank 0 < fuel))
    {σ : Type} {cb : Callback σ} (hcb : GoesOn cb) (c : σ) :
    ∃ rs : List (TwoLevel × Bool), extractPaths (C.machine weightOf limit) C.table.length ⟨cycles, if obey then some C.fd else none, leaveOut⟩ cb fuel c =
        .ok (rs.foldl (fun c r => (cb c r.1 r.2).1) c) ∧
      ∀ r, r ∈ rs ↔ ∃ l q, GPath g 0 l q ∧ l ≠ [] ∧ Followed cycles obey l ∧ r = pathReport g leaveOut l q := by
  obtain ⟨pos, hU⟩ := convert_usable order ho htoo (weightOf := weightOf) hE hg hr.noInsertions hb (hr.isRead (by decide) (by decide)) hC hi ht limit
  have hOK : Extraction.OK (C.machine weightOf limit) ⟨cycles, if obey then some C.fd else none, leaveOut⟩ := by
    refine ⟨?_, fun h => ?_⟩
    · cases obey
      · exact .inl rfl
      · exact .inr rfl
    · rw [hl h]
      rfl
  have hen : Enough ⟨cycles, if obey then some C.fd else none, leaveOut⟩ (netOf C.table g) fuel [] 0 := by
    rcases hf with ⟨h1, _, h2⟩ | ⟨_, rank, h1, h2⟩
    · refine enough_cycles hU.represents.closed h1 fuel [] 0 hU.represents.nonempty ?_
      unfold budget
      simp only [List.count_nil, Nat.sub_zero, List.map_const', List.sum_replicate_nat, List.length_range]
      exact h2
    · refine enough_rank hU.represents.closed (rank := rank) ?_ fuel [] 0 hU.represents.nonempty h2
      intro q _ a ha
      obtain ⟨b, hb, rfl⟩ := List.mem_map.mp ha
      exact h1 q b hb
  obtain ⟨rs, h1, h2⟩ := extractPaths_ok hU.represents hU.symbols (hU.walkable hr hb) hU.apart hOK (by dsimp only; omega) hcb hen c
  refine ⟨rs, h1, fun r => ?_⟩
  rw [h2]
  have key : ∀ {L : List Arc} {q : Nat}, GPath g 0 L q →
      ((Extraction.mk cycles (if obey then some C.fd else none) leaveOut).Allows 0 (L.map (numArc C.table)) ↔ Followed cycles obey L) ∧
      Extraction.report (C.machine weightOf limit) ⟨cycles, if obey then some C.fd else none, leaveOut⟩ (netOf C.table g) (L.map (numArc C.table)) q =
        pathReport g leaveOut L q := by
    intro L q hL
    refine ⟨?_, ?_⟩
    · unfold Extraction.Allows Followed visits
      refine and_congr ?_ ?_
      · rw [List.map_map]
        rfl
      · cases obey with
        | false =>
          exact ⟨(fun _ h => by cases h), fun _ fd h => by cases h⟩
        | true =>
          have hin : ∀ x ∈ (L.map (numArc C.table)).map (·.input), x < C.table.length := by
            intro x hx
            rw [List.map_map] at hx
            obtain ⟨a, ha, rfl⟩ := List.mem_map.mp hx
            obtain ⟨s, hs⟩ := hL.arcs a ha
            exact List.idxOf_lt_length_of_mem (hU.tables.arcs s a hs).1
          have hp := passes_valid (convert_flags hC) hU.tables.epsilon (hv rfl).1 (hv rfl).2 hin
          have hnames : (((L.map (numArc C.table)).map (·.input)).map fun x => (C.table[x]?).getD []) = L.map (·.inp) := by
            rw [List.map_map, List.map_map]
            apply List.map_congr_left
            intro a ha
            obtain ⟨s, hs⟩ := hL.arcs a ha
            show (C.table[C.table.idxOf a.inp]?).getD [] = a.inp
            rw [idx_get (hU.tables.arcs s a hs).1]
            rfl
          rw [hnames, ← valid_filter] at hp
          constructor
          · intro h _
            have := h C.fd rfl
            rw [hp] at this
            exact Option.some.inj this
          · intro h fd hfd
            have hfd : some C.fd = some fd := hfd
            injection hfd with hfd
            rw [← hfd, hp, h rfl]
    · have hshow : ∀ x ∈ C.table, Extraction.shown (C.machine weightOf limit) ⟨cycles, if obey then some C.fd else none, leaveOut⟩ (C.table.idxOf x) =
          symbolBytes leaveOut x := by
        intro x hx
        unfold Extraction.shown symbolBytes
        have hflag : (((C.machine weightOf limit).fd.getOperation (C.table.idxOf x)).isSome = true) ↔ Flags.isDiacritic x = true := by
          rw [Option.isSome_iff_exists]
          refine (hU.flags (C.table.idxOf x)).trans ?_
          rw [idx_get hx]
          simp
        have hbytes : ((C.machine weightOf limit).alphabet.table[C.table.idxOf x]?).getD [] = asBytes x := by
          rw [hU.alphabet, List.getElem?_map, idx_get hx]
          rfl
        rw [hbytes]
        by_cases hc : leaveOut = true ∧ Flags.isDiacritic x = true
        · rw [if_pos hc, if_pos ⟨hc.1, hflag.mpr hc.2⟩]
        · rw [if_neg hc, if_neg fun h => hc ⟨h.1, hflag.mp h.2⟩]
      unfold Extraction.report pathReport
      rw [numArc_weight, List.map_map]
      refine Prod.ext (Prod.ext rfl ?_) rfl
      apply List.map_congr_left
      intro a ha
      obtain ⟨s, hs⟩ := hL.arcs a ha
      obtain ⟨k1, k2⟩ := hU.tables.arcs s a hs
      exact Prod.ext (hshow _ k1) (hshow _ k2)
  constructor
  · rintro ⟨A, q, g1, g2, g3, rfl⟩
    obtain ⟨L, rfl, hL⟩ := path_net g1
    refine ⟨L, q, hL, ?_, (key hL).1.mp g3, (key hL).2⟩
    rintro rfl
    exact g2 rfl
  · rintro ⟨L, q, hL, g2, g3, rfl⟩
    refine ⟨_, q, net_path hL, ?_, (key hL).1.mpr g3, (key hL).2.symm⟩
    simpa using g2

end Hfst.Ol
