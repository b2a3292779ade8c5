import Mathlib.Data.List.Chain
import Verif.Props.OlConvertSymbols
import Verif.Props.Flags
import Verif.Spec.OlConvert
import Verif.Spec.Path

/-!
# Optimized lookup: the tables represent the graph
-/
namespace Hfst.Ol
open Hfst.Basic

theorem states_same {table : List Sym} {flags : List Nat} {finals : List (Nat × Int)} {q first : Nat} {ls : List (List Arc)}
    {hs : List Holder} (h : States table flags finals q first ls hs) : ∀ {ps : List Holder}, List.Forall₂ SameState hs ps →
    States table flags finals q first ls ps := by
  induction h with
  | nil => intro ps h; cases h; exact .nil
  | cons hp _ ih =>
    intro ps h
    cases h with
    | cons h1 h2 =>
      obtain ⟨i, rfl⟩ := h1
      obtain ⟨ok, h3, h4, h5, h6⟩ := hp
      exact .cons ⟨⟨ok.group, ok.present, ok.keys, ok.start, ok.empty, ok.zero, ok.nonzero⟩, h3, h4, h5, h6⟩ (ih h2)

theorem states_length {table : List Sym} {flags : List Nat} {finals : List (Nat × Int)} {q first : Nat} {ls : List (List Arc)}
    {ps : List Holder} (h : States table flags finals q first ls ps) : ps.length = ls.length := by
  induction h with
  | nil => rfl
  | cons _ _ ih => rw [List.length_cons, List.length_cons, ih]

theorem states_get {table : List Sym} {flags : List Nat} {finals : List (Nat × Int)} {q first : Nat} {ls : List (List Arc)}
    {ps : List Holder} (h : States table flags finals q first ls ps) : ∀ {k : Nat} {p : Holder}, ps[k]? = some p →
    ∃ l, ls[k]? = some l ∧ StateOK table flags finals (q + k) p.first l p := by
  induction h with
  | nil => intro k p hp; cases hp
  | @cons q first l ls p ps hp _ ih =>
    intro k r hr
    cases k with
    | zero =>
      injection hr with hr
      subst hr
      refine ⟨l, rfl, ?_⟩
      rw [hp.first]
      exact hp
    | succ k =>
      obtain ⟨l', h1, h2⟩ := ih (k := k) hr
      refine ⟨l', h1, ?_⟩
      rw [show q + (k + 1) = q + 1 + k by omega]
      exact h2

/-- What holds for the tables that are made. -/
structure Made (g : Graph) (table : List Sym) (seen : Nat) (flags : List Nat) (enc : Int → Nat) (u : Used) (ps : List Holder)
    (is : List Index) (ts : List Trans) : Prop where
  numbered : Numbered g table seen flags
  size : table.length ≤ 65535
  states : States table flags g.finals 0 0 g.states ps
  packed : Packed flags u ps
  start : ∀ p, ps[0]? = some p → p.start = 0
  indices : ∃ ys, is = ys ++ List.replicate seen blank ∧ ys.length = u.length ∧
    ∀ (i : Nat) (x : Option (Nat × Nat)), u[i]? = some x → ∃ y, ys[i]? = some y ∧ indexEntry enc flags ps x = .ok y
  trans : ts = (ps.map (entriesOf enc flags ps)).flatten ++ [padding]

theorem flags_facts {g : Graph} {table : List Sym} {seen : Nat} {flags : List Nat} (h : Numbered g table seen flags) :
    0 ∉ flags ∧ flags.Nodup ∧ (∀ x ∈ flags, seen ≤ x ∧ x < table.length) := by
  obtain ⟨k, rfl, hk⟩ := h.range
  have := h.bound.1
  refine ⟨?_, List.nodup_range', ?_⟩
  · rw [List.mem_range'_1]
    omega
  · intro x hx
    rw [List.mem_range'_1] at hx
    omega

theorem mem_flatten_of_get {ls : List (List Arc)} {k : Nat} {l : List Arc} (h : ls[k]? = some l) {a : Arc} (ha : a ∈ l) :
    a ∈ ls.flatten := List.mem_flatten.mpr ⟨l, List.mem_of_getElem? h, ha⟩

theorem arcs_flatten {g : Graph} {q : Nat} {a : Arc} (h : a ∈ g.arcs q) : a ∈ g.states.flatten := by
  unfold Graph.arcs at h
  cases hq : g.states[q]? with
  | none => rw [hq] at h; cases h
  | some l =>
    rw [hq] at h
    exact mem_flatten_of_get hq h

theorem flatten_arcs {g : Graph} {a : Arc} (h : a ∈ g.states.flatten) : ∃ q, a ∈ g.arcs q := by
  obtain ⟨l, hl, ha⟩ := List.mem_flatten.mp h
  obtain ⟨q, hq⟩ := List.mem_iff_getElem?.mp hl
  refine ⟨q, ?_⟩
  unfold Graph.arcs
  rw [hq]
  exact ha

/-- No entry of the index table fails. -/
theorem indexEntry_ok {table : List Sym} {flags : List Nat} {finals : List (Nat × Int)} {ls : List (List Arc)} {ps : List Holder}
    {u : Used} {enc : Int → Nat} (hS : States table flags finals 0 0 ls ps) (hP : Packed flags u ps) {j : Nat}
    {x : Option (Nat × Nat)} (hx : u[j]? = some x) : ∃ y, indexEntry enc flags ps x = .ok y := by
  cases x with
  | none => exact ⟨blank, rfl⟩
  | some v =>
    obtain ⟨q, s⟩ := v
    obtain ⟨p, hp, hq, hsimple, hplace⟩ := hP.owner j q s hx
    obtain ⟨k, hk⟩ := List.mem_iff_getElem?.mp hp
    obtain ⟨l, hl, hok⟩ := states_get hS hk
    have : q = k := by rw [← hq, hok.number, Nat.zero_add]
    subst this
    unfold indexEntry
    dsimp only
    rw [hk]
    dsimp only
    by_cases hs : s = noSymbol
    · rw [if_pos hs]
      exact ⟨_, rfl⟩
    · rw [if_neg hs]
      rcases hplace with ⟨h, _⟩ | ⟨_, e, he, hoff⟩
      · exact absurd h hs
      · by_cases h0 : s = 0
        · unfold Holder.symbolOffset
          rw [if_pos h0]
          exact ⟨_, rfl⟩
        · have hf : e.1 ∉ flags := by
            intro hf
            unfold indexOffset at hoff
            rw [if_pos hf] at hoff
            exact h0 hoff.symm
          have hes : e.1 = s := by
            unfold indexOffset at hoff
            rw [if_neg hf] at hoff
            exact hoff
          rw [hes] at hf
          obtain ⟨s1, s2, _, h2⟩ := symbolOffset_ok (present_iff.mpr ⟨e, he, hes⟩) h0 hf
          rw [h2]
          exact ⟨_, rfl⟩

/-- The conversion makes tables, or it throws because there are too many symbols or because a flag is not right. -/
theorem convert_made (order : List Sym → List Sym) (ho : ∀ l, (order l).Perm l) {tooFull : Nat → Nat → Bool}
    (htoo : ∀ n, 0 < n → tooFull 0 n = false) (enc : Int → Nat) {g : Graph} (hg : WF g)
    (hins : ∀ a ∈ g.states.flatten, isInsertion a.inp = false) :
    (65535 < ((collect order g).table order).length ∧ convert order tooFull enc g = .throws) ∨
    (flagTable ((collect order g).table order) = none ∧ convert order tooFull enc g = .throws) ∨
    ∃ flags u ps C, convert order tooFull enc g = .ok C ∧ C.table = (collect order g).table order ∧ flagTable C.table = some C.fd ∧
      Made g C.table C.seen flags enc u ps C.indices C.transitions := by
  have hN := table_numbered order ho hins
  unfold convert
  dsimp only
  generalize (collect order g).table order = table at hN ⊢
  generalize 1 + ((collect order g).inputPart order).length = seen at hN ⊢
  generalize List.range' seen ((collect order g).flagPart order).length = flags at hN ⊢
  by_cases hsize : 65535 < table.length
  · exact .inl ⟨hsize, if_pos hsize⟩
  · rw [if_neg hsize]
    have hS := holders_ok table flags g.finals g.states 0 0
    obtain ⟨P, ps, h1, h2, h3, h4⟩ := placeAll_ok htoo (flags := flags) (seen := seen) (holdersFrom table flags g.finals 0 0 g.states) []
      ⟨[], 0, 0, 0⟩ ⟨fun p hp => (by cases hp), fun p hp => (by cases hp), fun j q s h => (by cases h)⟩
    rw [List.nil_append] at h3
    have hS' := states_same hS h2
    have hlen := states_length hS'
    have hfirst : ∃ p, ps[0]? = some p := ⟨_, List.getElem?_eq_getElem (by rw [hlen]; exact hg.nonempty)⟩
    have hstart : ∀ p, ps[0]? = some p → p.start = 0 ∧ p.simple = false := by
      intro p hp
      obtain ⟨l, _, hok⟩ := states_get hS' hp
      have hns : p.simple = false := by
        unfold Holder.simple
        rw [hok.ok.start hok.number]
        rfl
      cases hp0 : (holdersFrom table flags g.finals 0 0 g.states)[0]? with
      | none =>
        have := h2.length_eq
        rw [List.getElem?_eq_none_iff] at hp0
        have := (List.getElem?_eq_some_iff.mp hp).1
        omega
      | some p0 =>
        have hsame : SameState p0 p := by
          obtain ⟨b1, e1⟩ := List.getElem?_eq_some_iff.mp hp0
          obtain ⟨b2, e2⟩ := List.getElem?_eq_some_iff.mp hp
          rw [← e1, ← e2]
          exact h2.get b1 b2
        exact ⟨h4 rfl rfl p0 p hp0 hp (by rw [← hsame.simple]; exact hns), hns⟩
    have hu : P.used ≠ [] := by
      obtain ⟨p, hp⟩ := hfirst
      have := h3.start p (List.mem_of_getElem? hp) (hstart p hp).2
      intro h
      rw [h] at this
      cases this
    obtain ⟨ys, y1, y2, y3⟩ := collect_get (f := indexEntry enc flags ps) (l := P.used) fun x hx => by
      obtain ⟨j, hj⟩ := List.mem_iff_getElem?.mp hx
      exact indexEntry_ok hS' h3 hj
    rw [h1, Outcome.bind]
    dsimp only
    unfold indexTable
    rw [if_neg hu, y1, Outcome.bind, Outcome.bind, transTable_ok, Outcome.bind]
    · cases hf : flagTable table with
      | none => exact .inr (.inl ⟨rfl, rfl⟩)
      | some fd =>
        refine .inr (.inr ⟨flags, P.used, ps, _, rfl, rfl, hf, hN, Nat.le_of_not_lt hsize, hS', h3, fun p hp => (hstart p hp).1, ⟨ys, rfl, y2, y3⟩, rfl⟩)
    · intro p hp
      obtain ⟨k, hk⟩ := List.mem_iff_getElem?.mp hp
      obtain ⟨l, hl, hok⟩ := states_get hS' hk
      refine ⟨_, hok.ok, ?_⟩
      intro t ht
      obtain ⟨a, ha, rfl⟩ := List.mem_map.mp ht
      rw [hlen]
      refine hg.targets k a ?_
      unfold Graph.arcs
      rw [hl]
      exact ha

/-! ## The transition table -/

/-- The weight occurs in the graph. -/
def HasWeight (g : Graph) (w : Int) : Prop := (∃ q, ∃ a ∈ g.arcs q, a.weight = w) ∨ ∃ q, g.final q = some w

theorem written_weight {g : Graph} {table : List Sym} {flags : List Nat} {q : Nat} {p : Holder}
    (h : HolderOK flags ((g.arcs q).map (numberArc table)) p) {y : TransHolder} (hy : y ∈ p.written flags) : HasWeight g y.weight := by
  obtain ⟨a, ha, rfl⟩ := List.mem_map.mp ((mem_written h).mp hy)
  exact .inl ⟨q, a, ha, rfl⟩

/-- The transition of the net. -/
def netArc (t : TransHolder) : NArc := ⟨t.input, t.output, t.target, t.weight⟩

/-- Where the states are. -/
def posOf (ps : List Holder) (q : Nat) : Nat := ((ps[q]?).map Holder.place).getD 0

theorem block_of {M : Machine} {enc : Int → Nat} (hw : M.weighted = true) {flags : List Nat} {ps : List Holder} {p : Holder} {pre post : List Trans} {t : Trans}
    (hts : M.transitions = pre ++ entriesOf enc flags ps p ++ t :: post) (hfirst : pre.length + (if p.number = 0 then 0 else 1) = p.first)
    {a1 b a2 : List TransHolder} (hE : ∀ y ∈ p.written flags, M.weightOf (enc y.weight) = y.weight)
    (hsplit : p.written flags = a1 ++ (b ++ a2)) {stop : Trans → Prop}
    (h1 : ∀ y, a2.head? = some y → stop (entryOf enc ps y)) (h2 : a2 = [] → stop t) :
    Block M (posOf ps) (p.first + a1.length) (b.map netArc) stop := by
  have hlen : (pre ++ if p.number = 0 then [] else [markerOf enc p]).length = p.first := by
    rw [List.length_append, ← hfirst]
    split <;> rfl
  have get : ∀ k, M.transitions[p.first + a1.length + k]? = (b.map (entryOf enc ps) ++ (a2.map (entryOf enc ps) ++ t :: post))[k]? := by
    intro k
    have : M.transitions = (pre ++ if p.number = 0 then [] else [markerOf enc p]) ++ (a1.map (entryOf enc ps) ++
        (b.map (entryOf enc ps) ++ (a2.map (entryOf enc ps) ++ t :: post))) := by
      rw [hts, entriesOf, hsplit]
      simp [List.append_assoc]
    rw [this, List.getElem?_append_right (by omega), List.getElem?_append_right (by rw [List.length_map]; omega)]
    congr 1
    rw [List.length_map]
    omega
  refine ⟨?_, ?_⟩
  · intro k a ha
    rw [List.getElem?_map] at ha
    cases hk : b[k]? with
    | none => rw [hk] at ha; cases ha
    | some y =>
      rw [hk] at ha
      injection ha with ha
      subst ha
      refine ⟨entryOf enc ps y, ?_, rfl, rfl, rfl, ?_⟩
      · rw [get, List.getElem?_append_left (by rw [List.length_map]; exact (List.getElem?_eq_some_iff.mp hk).1), List.getElem?_map, hk]
        rfl
      · rw [if_pos hw]
        refine hE y ?_
        rw [hsplit]
        exact List.mem_append_right _ (List.mem_append_left _ (List.mem_of_getElem? hk))
  · rw [List.length_map, get, List.getElem?_append_right (by rw [List.length_map]), List.length_map, Nat.sub_self]
    cases a2 with
    | nil => exact ⟨t, rfl, h2 rfl⟩
    | cons y a2 => exact ⟨_, rfl, h1 y rfl⟩

/-! ## The index table -/

section
variable {g : Graph} {table : List Sym} {seen : Nat} {flags : List Nat} {enc : Int → Nat} {u : Used} {ps : List Holder}
  {is : List Index} {ts : List Trans}

theorem Made.number {x : Sym} (h : x ∈ table) : symbolNumber table x = table.idxOf x := if_pos h

/-- The state with the number `q`. -/
theorem Made.state (m : Made g table seen flags enc u ps is ts) {q : Nat} (hq : q < g.states.length) :
    ∃ p, ps[q]? = some p ∧ p.number = q ∧ posOf ps q = p.place ∧ HolderOK flags ((g.arcs q).map (numberArc table)) p ∧
      p.final = (g.final q).isSome ∧ p.finalWeight = (g.final q).getD 0 ∧
      ∃ pre post t, ts = pre ++ entriesOf enc flags ps p ++ t :: post ∧ pre.length + (if p.number = 0 then 0 else 1) = p.first ∧
        t.input = noSymbol := by
  have hlt : q < ps.length := by rw [states_length m.states]; exact hq
  have hp := List.getElem?_eq_getElem hlt
  obtain ⟨h0, hn, _⟩ := flags_facts m.numbered
  obtain ⟨pre, post, t, l, h1, h2, h3, h4, h5⟩ := states_split h0 hn (enc := enc) (all := ps) m.states [] rfl q _ hp
  rw [Nat.zero_add] at h5
  have hl : g.arcs q = l := by unfold Graph.arcs; rw [h4]; rfl
  refine ⟨ps[q], hp, h5.number, ?_, ?_, h5.final, h5.weight, pre, post, t, ?_, h2, h3⟩
  · unfold posOf; rw [hp]; rfl
  · rw [hl]; exact h5.ok
  · rw [m.trans, ← h1, List.nil_append]

/-- The transitions of the net are those of the state. -/
theorem Made.arcs (m : Made g table seen flags enc u ps is ts) (q : Nat) :
    (netOf table g).arcs q = ((g.arcs q).map (numberArc table)).map netArc := by
  show (g.arcs q).map _ = _
  rw [List.map_map]
  apply List.map_congr_left
  intro a ha
  obtain ⟨h1, h2, _⟩ := m.numbered.arc a (arcs_flatten ha)
  show _ = netArc (numberArc table a)
  unfold netArc numberArc
  rw [Made.number h1, Made.number h2]

/-- The numbers of the input symbols of a state. -/
theorem Made.input (m : Made g table seen flags enc u ps is ts) {q : Nat} {t : TransHolder} (ht : t ∈ (g.arcs q).map (numberArc table)) :
    t.input < table.length ∧ (t.input ∈ flags ∨ t.input < seen) := by
  obtain ⟨a, ha, rfl⟩ := List.mem_map.mp ht
  obtain ⟨h1, _, h3, h4⟩ := m.numbered.arc a (arcs_flatten ha)
  refine ⟨number_lt h1, ?_⟩
  cases hd : Flags.isDiacritic a.inp with
  | false => exact .inr (h3 hd)
  | true => exact .inl (h4 hd)

/-- What is at a place after the start of a state. -/
theorem Made.place (m : Made g table seen flags enc u ps is ts) {q : Nat} {p : Holder} (hp : ps[q]? = some p)
    (hs : p.simple = false) {x : Nat} (hx : x < seen) : ∃ e, is[p.start + 1 + x]? = some e ∧
      (((¬ ∃ d ∈ p.groups, indexOffset flags d.1 = x) ∧ e.input ≠ x) ∨
       ((∃ d ∈ p.groups, indexOffset flags d.1 = x) ∧ e.input = x ∧ ∃ off, p.symbolOffset flags x = .ok off ∧ e.target = p.first + off + targetStart)) := by
  obtain ⟨ys, e1, e2, e3⟩ := m.indices
  have hmem := List.mem_of_getElem? hp
  have hstart := m.packed.start p hmem hs
  have hlt : p.start < u.length := (List.getElem?_eq_some_iff.mp hstart).1
  have hseen := m.numbered.bound.2
  have hsize := m.size
  have hxn : x ≠ noSymbol := by
    have : noSymbol = 65535 := rfl
    omega
  have hnum : p.number = q := by
    obtain ⟨l, _, hok⟩ := states_get m.states hp
    rw [hok.number, Nat.zero_add]
  by_cases hin : p.start + 1 + x < u.length
  · obtain ⟨y, hy, hind⟩ := e3 _ _ (List.getElem?_eq_getElem hin)
    have hget : is[p.start + 1 + x]? = some y := by
      rw [e1, List.getElem?_append_left (by omega)]
      exact hy
    refine ⟨y, hget, ?_⟩
    by_cases hd : ∃ d ∈ p.groups, indexOffset flags d.1 = x
    · obtain ⟨d, hd1, hd2⟩ := hd
      have hu := m.packed.symbol p hmem hs d hd1
      rw [hd2, show p.start + x + 1 = p.start + 1 + x by omega, List.getElem?_eq_getElem hin] at hu
      injection hu with hu
      rw [hu, hnum] at hind
      unfold indexEntry at hind
      dsimp only at hind
      rw [hp] at hind
      dsimp only at hind
      rw [if_neg hxn] at hind
      refine .inr ⟨⟨d, hd1, hd2⟩, ?_⟩
      cases ho : p.symbolOffset flags x with
      | ok off =>
        rw [ho] at hind
        injection hind with hind
        subst hind
        exact ⟨rfl, off, rfl, rfl⟩
      | throws => rw [ho] at hind; cases hind
      | undefined => rw [ho] at hind; cases hind
    · refine .inl ⟨hd, ?_⟩
      intro heq
      cases hu : u[p.start + 1 + x] with
      | none =>
        rw [hu] at hind
        injection hind with hind
        subst hind
        exact hxn heq.symm
      | some v =>
        obtain ⟨q', s⟩ := v
        have hu' : u[p.start + 1 + x]? = some (some (q', s)) := by rw [List.getElem?_eq_getElem hin, hu]
        obtain ⟨p', hp', hq', hs', hplace⟩ := m.packed.owner _ _ _ hu'
        obtain ⟨k, hk⟩ := List.mem_iff_getElem?.mp hp'
        obtain ⟨l, _, hok⟩ := states_get m.states hk
        have hkq : q' = k := by rw [← hq', hok.number, Nat.zero_add]
        subst hkq
        rw [hu] at hind
        unfold indexEntry at hind
        dsimp only at hind
        rw [hk] at hind
        dsimp only at hind
        by_cases hsn : s = noSymbol
        · rw [if_pos hsn] at hind
          injection hind with hind
          subst hind
          have : (if p'.final = true then (⟨noSymbol, enc p'.finalWeight⟩ : Index) else blank).input = noSymbol := by split <;> rfl
          rw [this] at heq
          exact hxn heq.symm
        · rw [if_neg hsn] at hind
          rcases hplace with ⟨h, _⟩ | ⟨h1, d, h2, h3⟩
          · exact hsn h
          · have hsx : s = x := by
              cases ho : p'.symbolOffset flags s with
              | ok off =>
                rw [ho] at hind
                injection hind with hind
                subst hind
                exact heq
              | throws => rw [ho] at hind; cases hind
              | undefined => rw [ho] at hind; cases hind
            subst hsx
            have hst : p'.start = p.start := by omega
            have h4 := m.packed.start p' hp' hs'
            rw [hst, hstart] at h4
            injection h4 with h4
            injection h4 with h4
            injection h4 with h4 _
            rw [hnum, hq'] at h4
            subst h4
            rw [hp] at hk
            injection hk with hk
            subst hk
            exact hd ⟨d, h2, h3⟩
  · have hget : is[p.start + 1 + x]? = some blank := by
      rw [e1, List.getElem?_append_right (by omega), List.getElem?_replicate, if_pos (by omega)]
    refine ⟨blank, hget, .inl ⟨?_, fun h => hxn h.symm⟩⟩
    rintro ⟨d, hd1, hd2⟩
    have := m.packed.symbol p hmem hs d hd1
    have := (List.getElem?_eq_some_iff.mp this).1
    omega

/-- A transition reads nothing iff its number is looked up as epsilon. -/
theorem Made.flag (m : Made g table seen flags enc u ps is ts) {K : Kinds}
    (hF : ∀ x, K.Flag x ↔ ∃ s, table[x]? = some s ∧ Flags.isDiacritic s = true) :
    (∀ x < seen, ¬ K.Flag x) ∧ (∀ x ∈ flags, K.Flag x) := by
  refine ⟨?_, ?_⟩
  · intro x hx hf
    obtain ⟨s, hs, hd⟩ := (hF x).mp hf
    rw [m.numbered.plain x s hx hs] at hd
    cases hd
  · intro x hx
    have hlt := ((flags_facts m.numbered).2.2 x hx).2
    exact (hF x).mpr ⟨_, List.getElem?_eq_getElem hlt, m.numbered.flag x _ hx (List.getElem?_eq_getElem hlt)⟩

variable {M : Machine}

/-- A state in the index table. -/
theorem Made.inIndex (m : Made g table seen flags enc u ps M.indices M.transitions)
    (hF : ∀ x, M.kinds.Flag x ↔ ∃ s, table[x]? = some s ∧ Flags.isDiacritic s = true)
    (hw : M.weighted = true) (hE : ∀ w, HasWeight g w → M.weightOf (enc w) = w ∧ enc w ≠ noIndex) {n : Inputs}
    (hn : ∀ x, IsInput M.kinds n x → x < seen) (hsize : M.indices.length ≤ targetStart) {q : Nat} (hq : q < g.states.length) {p : Holder}
    (hp : ps[q]? = some p) (hs : p.simple = false) : InIndex M n (netOf table g) (posOf ps) q := by
  obtain ⟨p', hp', hnum, hpos, hok, hfin, hfw, pre, post, t, hts, hfirst, ht⟩ := m.state hq
  rw [hp] at hp'
  injection hp' with hp'
  subst hp'
  obtain ⟨hf0, hfn, hfb⟩ := flags_facts m.numbered
  obtain ⟨hplain, hflag⟩ := m.flag hF
  have hseen := m.numbered.bound
  have htab := m.size
  have hnoSymbol : noSymbol = 65535 := rfl
  have hpos' : posOf ps q = p.start := by rw [hpos, Holder.place, if_neg (by rw [hs]; simp)]
  have hmem := List.mem_of_getElem? hp
  have hstart := m.packed.start p hmem hs
  have hlt : p.start < u.length := (List.getElem?_eq_some_iff.mp hstart).1
  obtain ⟨ys, e1, e2, e3⟩ := m.indices
  have hnoflag : ¬ M.kinds.Flag noSymbol := by
    intro h
    obtain ⟨s, h1, _⟩ := (hF _).mp h
    have := (List.getElem?_eq_some_iff.mp h1).1
    omega
  have hfree : ∀ x, p.present x = true → (M.kinds.Flag x ↔ x ∈ flags) := by
    intro x hx
    obtain ⟨y, hy, rfl⟩ := (hok.present x).mp hx
    refine ⟨fun h => ?_, hflag _⟩
    rcases (m.input hy).2 with h1 | h1
    · exact h1
    · exact absurd h (hplain _ h1)
  refine ⟨?_, ?_, ?_, ?_⟩
  · rw [hpos']
    have : M.indices.length = u.length + seen := by rw [e1, List.length_append, List.length_replicate, e2]
    omega
  · obtain ⟨y, hy, hind⟩ := e3 _ _ hstart
    refine ⟨y, ?_, ?_⟩
    · rw [hpos', e1, List.getElem?_append_left (by omega)]
      exact hy
    · unfold indexEntry at hind
      dsimp only at hind
      rw [hnum, hp] at hind
      dsimp only at hind
      rw [if_pos rfl, hfin, hfw] at hind
      injection hind with hind
      show MarksIndex M y (g.final q)
      cases hfq : g.final q with
      | none =>
        rw [hfq] at hind
        rw [← hind]
        exact fun h => h.2 rfl
      | some w =>
        rw [hfq] at hind
        rw [← hind]
        refine ⟨rfl, (hE w (.inr ⟨q, hfq⟩)).2, ?_⟩
        rw [if_pos hw]
        exact (hE w (.inr ⟨q, hfq⟩)).1.symm
  · obtain ⟨e, he, hcase⟩ := m.place hp hs (x := 0) (by omega)
    refine ⟨e, by rw [hpos']; exact he, ?_⟩
    have hgroup : (∃ d ∈ p.groups, indexOffset flags d.1 = 0) ↔ ∃ x, p.present x = true ∧ (x = 0 ∨ x ∈ flags) := by
      constructor
      · rintro ⟨d, h1, h2⟩
        refine ⟨d.1, present_iff.mpr ⟨d, h1, rfl⟩, ?_⟩
        unfold indexOffset at h2
        by_cases h : d.1 ∈ flags
        · exact .inr h
        · rw [if_neg h] at h2
          exact .inl h2
      · rintro ⟨x, h1, h2⟩
        obtain ⟨d, h3, h4⟩ := present_iff.mp h1
        refine ⟨d, h3, ?_⟩
        unfold indexOffset
        rw [h4]
        rcases h2 with h2 | h2
        · rw [h2, if_neg hf0]
        · rw [if_pos h2]
    have harc : ∀ a, a ∈ (netOf table g).arcs q ∧ M.kinds.Free a ↔ a ∈ ((p.freeSymbols flags).flatMap p.group).map netArc := by
      intro a
      rw [m.arcs q, List.mem_map, List.mem_map]
      constructor
      · rintro ⟨⟨y, hy, rfl⟩, hfr⟩
        have hpr := (hok.present _).mpr ⟨y, hy, rfl⟩
        refine ⟨y, List.mem_flatMap.mpr ⟨y.input, mem_free.mpr ⟨hpr, ?_⟩, (group_input hok).mpr ⟨hy, rfl⟩⟩, rfl⟩
        rcases hfr with h | h
        · exact .inl h
        · exact .inr ((hfree _ hpr).mp h)
      · rintro ⟨y, hy, rfl⟩
        obtain ⟨x, hx, hyx⟩ := List.mem_flatMap.mp hy
        obtain ⟨hy1, hy2⟩ := (group_input hok).mp hyx
        refine ⟨⟨y, hy1, rfl⟩, ?_⟩
        rcases (mem_free.mp hx).2 with h | h
        · exact .inl (hy2.trans h)
        · refine .inr (hflag _ ?_)
          show y.input ∈ flags
          rw [hy2]
          exact h
    rcases hcase with ⟨hno, hin⟩ | ⟨hyes, hin, off, hoff, htar⟩
    · refine .inl ⟨hin, ?_⟩
      intro a ha hfr
      obtain ⟨y, hy, _⟩ := List.mem_map.mp ((harc a).mp ⟨ha, hfr⟩)
      obtain ⟨x, hx, _⟩ := List.mem_flatMap.mp hy
      exact hno (hgroup.mpr ⟨x, mem_free.mp hx⟩)
    · have hoff0 : off = 0 := by
        unfold Holder.symbolOffset at hoff
        rw [if_pos rfl] at hoff
        injection hoff with hoff
        exact hoff.symm
      subst hoff0
      refine .inr ⟨hin, by omega, ((p.freeSymbols flags).flatMap p.group).map netArc, ?_, fun a => (harc a).symm, ?_⟩
      · obtain ⟨x, hx⟩ := hgroup.mp hyes
        obtain ⟨y, hy1, hy2⟩ := (hok.present x).mp hx.1
        have : netArc y ∈ ((p.freeSymbols flags).flatMap p.group).map netArc :=
          List.mem_map.mpr ⟨y, List.mem_flatMap.mpr ⟨x, mem_free.mpr hx, (group_input hok).mpr ⟨hy1, hy2⟩⟩, rfl⟩
        exact List.ne_nil_of_mem this
      · rw [htar, Nat.add_sub_cancel]
        refine block_of hw hts hfirst (fun y hy => (hE _ (written_weight hok hy)).1) (a1 := []) (b := (p.freeSymbols flags).flatMap p.group)
          (a2 := (p.otherSymbols flags).flatMap p.group) ?_ ?_ ?_
        · rw [Holder.written, symbols_eq, List.flatMap_append, List.nil_append]
        · intro y hy
          obtain ⟨x, hx, hyx⟩ := List.mem_flatMap.mp (List.mem_of_mem_head? hy)
          obtain ⟨h1, h2, h3⟩ := mem_other.mp hx
          have h4 := ((group_input hok).mp hyx).2
          show y.input ≠ 0 ∧ ¬ M.kinds.Flag y.input
          rw [h4, hfree x h1]
          exact ⟨h2, h3⟩
        · intro _
          rw [ht]
          exact ⟨by decide, hnoflag⟩
  · intro x hx
    obtain ⟨hx0, hxn, hxf, _⟩ := id hx
    have hxs := hn x hx
    have hxflags : x ∉ flags := fun h => hxf (hflag x h)
    obtain ⟨e, he, hcase⟩ := m.place hp hs hxs
    refine ⟨e, by rw [hpos']; exact he, ?_⟩
    have hgroup : (∃ d ∈ p.groups, indexOffset flags d.1 = x) ↔ p.present x = true := by
      rw [present_iff]
      constructor
      · rintro ⟨d, h1, h2⟩
        refine ⟨d, h1, ?_⟩
        unfold indexOffset at h2
        by_cases h : d.1 ∈ flags
        · rw [if_pos h] at h2
          exact absurd h2.symm hx0
        · rw [if_neg h] at h2
          exact h2
      · rintro ⟨d, h1, h2⟩
        refine ⟨d, h1, ?_⟩
        unfold indexOffset
        rw [h2, if_neg hxflags]
    have harc : ∀ a, a ∈ (netOf table g).arcs q ∧ a.input = x ↔ a ∈ (p.group x).map netArc := by
      intro a
      rw [m.arcs q, List.mem_map, List.mem_map]
      constructor
      · rintro ⟨⟨y, hy, rfl⟩, hfr⟩
        exact ⟨y, (group_input hok).mpr ⟨hy, hfr⟩, rfl⟩
      · rintro ⟨y, hy, rfl⟩
        obtain ⟨hy1, hy2⟩ := (group_input hok).mp hy
        exact ⟨⟨y, hy1, rfl⟩, hy2⟩
    rcases hcase with ⟨hno, hin⟩ | ⟨hyes, hin, off, hoff, htar⟩
    · refine .inl ⟨hin, ?_⟩
      intro a ha hax
      obtain ⟨y, hy, _⟩ := List.mem_map.mp ((harc a).mp ⟨ha, hax⟩)
      obtain ⟨hy1, hy2⟩ := (group_input hok).mp hy
      exact hno (hgroup.mpr ((hok.present x).mpr ⟨y, hy1, hy2⟩))
    · have hpr := hgroup.mp hyes
      obtain ⟨s1, s2, hsplit, hoff'⟩ := symbolOffset_ok hpr hx0 hxflags
      rw [hoff] at hoff'
      injection hoff' with hoff'
      subst hoff'
      refine .inr ⟨hin, by omega, (p.group x).map netArc, ?_, fun a => (harc a).symm, ?_⟩
      · obtain ⟨y, hy1, hy2⟩ := (hok.present x).mp hpr
        exact List.ne_nil_of_mem (List.mem_map.mpr ⟨y, (group_input hok).mpr ⟨hy1, hy2⟩, rfl⟩)
      · rw [htar, Nat.add_sub_cancel]
        refine block_of hw hts hfirst (fun y hy => (hE _ (written_weight hok hy)).1) (a1 := s1.flatMap p.group) (b := p.group x) (a2 := s2.flatMap p.group) ?_ ?_ ?_
        · rw [Holder.written, hsplit, List.flatMap_append, List.flatMap_cons]
        · intro y hy
          obtain ⟨z, hz, hyz⟩ := List.mem_flatMap.mp (List.mem_of_mem_head? hy)
          have h4 := ((group_input hok).mp hyz).2
          show y.input ≠ x
          rw [h4]
          have hnd := symbols_nodup hf0 hfn p
          rw [hsplit, List.nodup_append] at hnd
          intro h
          rw [h] at hz
          exact (List.nodup_cons.mp hnd.2.1).1 hz
        · intro _
          rw [ht]
          exact fun h => hxn h.symm

/-- A state that is only in the transition table. -/
theorem Made.inTransitions (m : Made g table seen flags enc u ps M.indices M.transitions)
    (hF : ∀ x, M.kinds.Flag x ↔ ∃ s, table[x]? = some s ∧ Flags.isDiacritic s = true)
    (hw : M.weighted = true) (hE : ∀ w, HasWeight g w → M.weightOf (enc w) = w ∧ enc w ≠ noIndex) {n : Inputs} (hn : n.count = seen) {q : Nat}
    (hq : q < g.states.length) {p : Holder}
    (hp : ps[q]? = some p) (hs : p.simple = true) : InTransitions M n (netOf table g) (posOf ps) q := by
  obtain ⟨p', hp', hnum, hpos, hok, hfin, hfw, pre, post, t, hts, hfirst, ht⟩ := m.state hq
  rw [hp] at hp'
  injection hp' with hp'
  subst hp'
  obtain ⟨hplain, hflag⟩ := m.flag hF
  have hq0 : p.number ≠ 0 := by
    intro h
    unfold Holder.simple at hs
    rw [hok.start h] at hs
    cases hs
  rw [if_neg hq0] at hfirst
  have hpos' : posOf ps q = p.first + targetStart - 1 := by rw [hpos, Holder.place, if_pos hs]
  have hsub : posOf ps q - targetStart = pre.length := by omega
  refine ⟨by omega, ?_, ?_, ?_⟩
  · refine ⟨markerOf enc p, ?_, ?_⟩
    · rw [hsub, hts, entriesOf, if_neg hq0]
      simp
    · show MarksTrans M _ (g.final q)
      unfold markerOf
      rw [hfin, hfw]
      cases hfq : g.final q with
      | none =>
        rintro ⟨_, _, h⟩
        have h : noIndex = 1 := h
        exact absurd h (by decide)
      | some w =>
        refine ⟨rfl, rfl, rfl, ?_⟩
        rw [if_pos hw]
        exact (hE w (.inr ⟨q, hfq⟩)).1.symm
  · refine ⟨(p.written flags).map netArc, ?_, ?_⟩
    · intro a
      rw [m.arcs q, List.mem_map, List.mem_map]
      constructor
      · rintro ⟨y, hy, rfl⟩
        exact ⟨y, (mem_written hok).mp hy, rfl⟩
      · rintro ⟨y, hy, rfl⟩
        exact ⟨y, (mem_written hok).mpr hy, rfl⟩
    · rw [hsub, hfirst]
      exact block_of hw hts (by rw [if_neg hq0]; exact hfirst) (fun y hy => (hE _ (written_weight hok hy)).1) (a1 := []) (b := p.written flags) (a2 := [])
        (by simp) (fun y hy => by cases hy) fun _ => ht
  · have harc : ∀ a ∈ (netOf table g).arcs q, ∃ y ∈ (g.arcs q).map (numberArc table), netArc y = a ∧ ∃ e ∈ p.groups, e.1 = a.input := by
      intro a ha
      rw [m.arcs q, List.mem_map] at ha
      obtain ⟨y, hy, rfl⟩ := ha
      exact ⟨y, hy, rfl, present_iff.mp ((hok.present _).mpr ⟨y, hy, rfl⟩)⟩
    cases ht : p.type with
    | nonsimple =>
      unfold Holder.simple at hs
      rw [ht] at hs
      cases hs
    | empty =>
      refine .inl fun a ha => ?_
      obtain ⟨_, _, _, e, he, _⟩ := harc a ha
      rw [hok.empty ht] at he
      cases he
    | zero =>
      refine .inl fun a ha => ?_
      obtain ⟨_, _, _, e, he, hea⟩ := harc a ha
      rcases hok.zero ht e he with h | h
      · exact .inl (hea ▸ h)
      · exact .inr (hflag _ (hea ▸ h))
    | nonzero =>
      obtain ⟨x, hx0, hxf, hx⟩ := hok.nonzero ht
      by_cases hempty : ∃ a, a ∈ (netOf table g).arcs q
      · refine .inr ⟨x, ?_, ?_⟩
        · obtain ⟨a, ha⟩ := hempty
          obtain ⟨y, hy, rfl, e, he, hea⟩ := harc a ha
          have hyx : y.input = x := hea.symm.trans (hx e he)
          obtain ⟨h1, h2⟩ := m.input hy
          rw [hyx] at h1 h2
          have h3 : x < seen := h2.resolve_left hxf
          have := m.size
          have : noSymbol = 65535 := rfl
          exact ⟨hx0, by omega, hplain x h3, .inl (by omega)⟩
        · intro a ha
          obtain ⟨_, _, _, e, he, hea⟩ := harc a ha
          rw [← hea]
          exact hx e he
      · exact .inl fun a ha => absurd ⟨a, ha⟩ hempty

end

/-! ## Flags can be defined -/

theorem addFeature_some {m : List (Str × Nat)} {f : Str} (h : m.length ≤ 65535) : ∃ m', Flags.addFeature m f = some m' ∧ m'.length ≤ m.length + 1 := by
  unfold Flags.addFeature Flags.sizeToUShort
  split
  · exact ⟨m, rfl, by omega⟩
  · exact ⟨_, rfl, by simp⟩

theorem addValue_some {m : List (Str × Int)} {v : Str} (h : m.length + 1 ≤ 65535) : ∃ m', Flags.addValue m v = some m' ∧ m'.length ≤ m.length + 1 := by
  unfold Flags.addValue Flags.sizeToUShort
  split
  · exact ⟨m, rfl, by omega⟩
  · exact ⟨_, rfl, by simp⟩

theorem defineAll_some : ∀ (defs : List (Nat × Str)) (t : Flags.FdTable Nat), (∀ d ∈ defs, Flags.isDiacritic d.2 = true) →
    t.featureMap.length + defs.length ≤ 65535 → t.valueMap.length + defs.length ≤ 65535 → ∃ t', t.defineAll defs = some t'
  | [], t, _, _, _ => ⟨t, rfl⟩
  | (x, s) :: defs, t, h, h1, h2 => by
    rw [List.length_cons] at h1 h2
    have hd := h (x, s) (List.mem_cons_self ..)
    obtain ⟨o, f, v, hw, hs⟩ := (Flags.C01_isDiacritic_iff s).mp hd
    obtain ⟨op, hop⟩ := Option.isSome_iff_exists.mp (Flags.charToOperator_isSome.mpr hw.1)
    have hsplit : Flags.splitDiacritic s = some (op, f, v) := by rw [hs, Flags.splitDiacritic_spell o f v hw, hop]; rfl
    obtain ⟨fm, hfm, hfl⟩ := addFeature_some (m := t.featureMap) (f := f) (by omega)
    obtain ⟨vm, hvm, hvl⟩ := addValue_some (m := t.valueMap) (v := v.getD []) (by omega)
    have hdef : ∃ t', t.define x s = some t' ∧ t'.featureMap = fm ∧ t'.valueMap = vm := by
      unfold Flags.FdTable.define
      rw [if_pos hd, hsplit]
      dsimp only
      rw [hfm, hvm]
      exact ⟨_, rfl, rfl, rfl⟩
    obtain ⟨t', ht', e1, e2⟩ := hdef
    obtain ⟨t2, ht2⟩ := defineAll_some defs t' (fun d hd => h d (List.mem_cons_of_mem _ hd)) (by rw [e1]; omega) (by rw [e2]; omega)
    exact ⟨t2, by rw [Flags.FdTable.defineAll, ht']; exact ht2⟩

/-- A table that begins with epsilon and is not too large has flags that can be defined. -/
theorem flagTable_some {table : List Sym} (h0 : table[0]? = some epsilonSym) (hsize : table.length ≤ 65535) :
    ∃ fd, flagTable table = some fd := by
  cases table with
  | nil => cases h0
  | cons x xs =>
    injection h0 with h0
    subst h0
    unfold flagTable
    rw [List.zipIdx_cons, List.filterMap_cons_none (by dsimp only; rw [epsilon_plain]; rfl)]
    have hlen : ∀ f : Sym × Nat → Option (Nat × Sym), ((xs.zipIdx (0 + 1)).filterMap f).length ≤ xs.length := by
      intro f
      refine Nat.le_trans (List.length_filterMap_le _ _) ?_
      rw [List.length_zipIdx]
    rw [List.length_cons] at hsize
    apply defineAll_some
    · intro d hd
      obtain ⟨⟨y, i⟩, _, hy⟩ := List.mem_filterMap.mp hd
      dsimp only at hy
      split at hy
      · rename_i hd
        injection hy with hy
        rw [← hy]
        exact hd
      · cases hy
    · show 0 + _ ≤ _
      exact Nat.le_trans (Nat.add_le_add_left (hlen _) _) (by omega)
    · show 1 + _ ≤ _
      exact Nat.le_trans (Nat.add_le_add_left (hlen _) _) (by omega)

/-! ## The theorems -/

/-- If the graph has the symbol, some transition reads it. -/
def IsRead (g : Graph) (s : Sym) : Prop :=
  (s ∈ g.alphabet ∨ ∃ q, ∃ a ∈ g.arcs q, a.out = s) → ∃ q, ∃ a ∈ g.arcs q, a.inp = s

/-- The symbols of the graph are strings of bytes. -/
def ByteGraph (g : Graph) : Prop := (∀ x ∈ g.alphabet, ByteSym x) ∧ ∀ q, ∀ a ∈ g.arcs q, ByteSym a.inp ∧ ByteSym a.out

/-- The input symbols of the converted transducer; unknown symbols can be looked up if the symbols that stand for them are read
somewhere. -/
def Converted.inputs (C : Converted) (g : Graph) : Inputs := ⟨C.seen, IsRead g Basic.identity ∧ IsRead g Basic.unknown⟩

/-- No transition reads an insertion symbol. -/
def NoInsertions (g : Graph) : Prop := ∀ q, ∀ a ∈ g.arcs q, isInsertion a.inp = false

theorem numbered_bytes {g : Graph} {table : List Sym} {seen : Nat} {flags : List Nat} (h : Numbered g table seen flags) (hb : ByteGraph g) :
    ∀ x ∈ table, ByteSym x := by
  intro x hx
  rcases h.only x hx with rfl | h1 | ⟨a, ha, h1⟩
  · unfold ByteSym
    decide
  · exact hb.1 x h1
  · obtain ⟨q, hq⟩ := flatten_arcs ha
    rcases h1 with rfl | rfl
    · exact (hb.2 q a hq).1
    · exact (hb.2 q a hq).2

/-- A special symbol that is read has an input number. -/
theorem special_read {g : Graph} {table : List Sym} {seen : Nat} {flags : List Nat} (h : Numbered g table seen flags) {s : Sym}
    (hp : Flags.isDiacritic s = false) (hs : s ≠ epsilonSym) (hr : IsRead g s) {k : Nat}
    (hk : k = if s ∈ table then table.idxOf s else noSymbol) (hne : k ≠ noSymbol) : k < seen := by
  by_cases hm : s ∈ table
  · have : ∃ q, ∃ a ∈ g.arcs q, a.inp = s := by
      rcases h.only s hm with h1 | h1 | ⟨a, ha, h1 | h1⟩
      · exact absurd h1 hs
      · exact hr (.inl h1)
      · obtain ⟨q, hq⟩ := flatten_arcs ha
        exact ⟨q, a, hq, h1⟩
      · obtain ⟨q, hq⟩ := flatten_arcs ha
        exact hr (.inr ⟨q, a, hq, h1⟩)
    obtain ⟨q, a, ha, rfl⟩ := this
    have := (h.arc a (arcs_flatten ha)).2.2.1 hp
    rw [hk, if_pos hm, ← Made.number hm]
    exact this
  · rw [if_neg hm] at hk
    exact absurd hk hne

/-- The conversion to optimized lookup ends, and it fails only if there are more than 65535 symbols.  (`order` is the order of the sets of
symbols, and `tooFull` says when a part of the index table is not searched any more; an empty part is searched.) -/
theorem C38_total (order : List Sym → List Sym) (ho : ∀ l, (order l).Perm l) {tooFull : Nat → Nat → Bool}
    (htoo : ∀ n, 0 < n → tooFull 0 n = false) (enc : Int → Nat) {g : Graph} (hg : WF g) (hins : NoInsertions g) :
    (∃ C, convert order tooFull enc g = .ok C ∧ C.table.length ≤ 65535 ∧ TableOf g C.table) ∨
    (convert order tooFull enc g = .throws ∧ ∃ table, TableOf g table ∧ 65535 < table.length) := by
  have hins' : ∀ a ∈ g.states.flatten, isInsertion a.inp = false := by
    intro a ha
    obtain ⟨q, hq⟩ := flatten_arcs ha
    exact hins q a hq
  have conv : ∀ {table seen flags}, Numbered g table seen flags → TableOf g table := by
    intro table seen flags h
    refine ⟨h.nodup, h.zero, fun q a ha => ?_, h.all, ?_⟩
    · obtain ⟨h1, h2, _⟩ := h.arc a (arcs_flatten ha)
      exact ⟨h1, h2⟩
    · intro x hx
      rcases h.only x hx with h1 | h1 | ⟨a, ha, h1⟩
      · exact .inl h1
      · exact .inr (.inl h1)
      · obtain ⟨q, hq⟩ := flatten_arcs ha
        exact .inr (.inr ⟨q, a, hq, h1⟩)
  have hN := table_numbered order ho hins'
  rcases convert_made order ho htoo enc hg hins' with ⟨h1, h2⟩ | ⟨h1, h2⟩ | ⟨flags, u, ps, C, h1, _, _, m⟩
  · exact .inr ⟨h2, _, conv hN, h1⟩
  · by_cases hsize : 65535 < ((collect order g).table order).length
    · exact .inr ⟨h2, _, conv hN, hsize⟩
    · obtain ⟨fd, hfd⟩ := flagTable_some hN.zero (Nat.le_of_not_lt hsize)
      rw [hfd] at h1
      cases h1
  · exact .inl ⟨C, h1, m.size, conv m.numbered⟩

/-- What is needed to use the theorems about lookup. -/
structure Usable (g : Graph) (M : Machine) (table : List Sym) (n : Inputs) (pos : Nat → Nat) : Prop where
  tables : TableOf g table
  represents : Represents M n (netOf table g) pos
  symbols : SymbolsOK M.kinds n (netOf table g)
  flags : ∀ x, M.kinds.Flag x ↔ ∃ s, table[x]? = some s ∧ Flags.isDiacritic s = true
  injective : ∀ q < g.states.length, ∀ r < g.states.length, pos q = pos r → q = r
  alphabet : M.alphabet.table = table.map asBytes
  unknown : M.alphabet.unknown = if Basic.unknown ∈ table then table.idxOf Basic.unknown else noSymbol
  identity : M.alphabet.identity = if Basic.identity ∈ table then table.idxOf Basic.identity else noSymbol
  default : M.alphabet.default = if defaultSym ∈ table then table.idxOf defaultSym else noSymbol
  read : ∀ x, 0 < x → x < n.count → ∀ s, table[x]? = some s → Flags.isDiacritic s = false ∧ ∃ q, ∃ a ∈ g.arcs q, a.inp = s
  inputs : ∀ q, ∀ a ∈ g.arcs q, Flags.isDiacritic a.inp = false → table.idxOf a.inp < n.count
  marker : ∀ q < g.states.length, targetStart ≤ pos q → ∃ t, M.transitions[pos q - targetStart]? = some t ∧ t.input = noSymbol ∧ t.output = noSymbol
  sorted : ∀ (i : Nat) (t t' : Trans), M.transitions[i]? = some t → M.transitions[i + 1]? = some t' → t.input ≠ noSymbol → t.input ≠ 0 →
    t'.input ≠ 0

/-- The transitions that read epsilon are written first. -/
theorem written_sorted {flags : List Nat} (h0 : 0 ∉ flags) {l : List TransHolder} {p : Holder} (h : HolderOK flags l p) :
    ∃ A B, p.written flags = A ++ B ∧ (∀ t ∈ A, t.input = 0) ∧ ∀ t ∈ B, t.input ≠ 0 := by
  have hg : ∀ {x : Nat} {t : TransHolder}, t ∈ p.group x → t.input = x := fun ht => ((group_input h).mp ht).2
  unfold Holder.written
  rw [symbols_eq, Holder.freeSymbols, List.append_assoc, List.flatMap_append]
  refine ⟨_, _, rfl, ?_, ?_⟩
  · intro t ht
    obtain ⟨x, hx, hxt⟩ := List.mem_flatMap.mp ht
    rw [hg hxt]
    split at hx
    · simpa using hx
    · cases hx
  · intro t ht
    obtain ⟨x, hx, hxt⟩ := List.mem_flatMap.mp ht
    rw [hg hxt]
    rcases List.mem_append.mp hx with hx | hx
    · rintro rfl
      exact h0 (List.mem_of_mem_filter hx)
    · rintro rfl
      have := List.mem_of_mem_filter hx
      rw [List.mem_range'_1] at this
      omega

/-- What two neighbouring entries are like. -/
def Neighbours (t t' : Trans) : Prop := t.input ≠ noSymbol → t.input ≠ 0 → t'.input ≠ 0

theorem states_sorted {table : List Sym} {flags : List Nat} (h0 : 0 ∉ flags) {finals : List (Nat × Int)} {enc : Int → Nat} {all : List Holder} {q first : Nat} {ls : List (List Arc)}
    {ps : List Holder} (h : States table flags finals q first ls ps) :
    List.IsChain Neighbours ((ps.map (entriesOf enc flags all)).flatten ++ [padding]) ∧
      (q ≠ 0 → ∀ t, ((ps.map (entriesOf enc flags all)).flatten ++ [padding]).head? = some t → t.input = noSymbol) := by
  induction h with
  | nil =>
    refine ⟨.singleton _, fun _ t ht => ?_⟩
    injection ht with ht
    rw [← ht]
    rfl
  | @cons q first l ls p ps hp _ ih =>
    obtain ⟨ih1, ih2⟩ := ih
    obtain ⟨A, B, e1, e2, e3⟩ := written_sorted h0 hp.ok
    have hrest : ∀ y ∈ ((ps.map (entriesOf enc flags all)).flatten ++ [padding]).head?, y.input ≠ 0 := by
      intro y hy
      rw [ih2 (by omega) y hy]
      decide
    have hB : ∀ L : List TransHolder, (∀ t ∈ L, t.input ≠ 0) → List.IsChain Neighbours (L.map (entryOf enc all)) := by
      intro L
      induction L with
      | nil => intro _; exact .nil
      | cons a L ihL =>
        intro hL
        rw [List.map_cons, List.isChain_cons]
        refine ⟨?_, ihL fun t ht => hL t (List.mem_cons_of_mem _ ht)⟩
        intro y hy _ _
        cases L with
        | nil => cases hy
        | cons b L =>
          injection hy with hy
          rw [← hy]
          exact hL b (by simp)
    have hA : ∀ L : List TransHolder, (∀ t ∈ L, t.input = 0) → List.IsChain Neighbours (L.map (entryOf enc all) ++ B.map (entryOf enc all)) := by
      intro L
      induction L with
      | nil => intro _; exact hB B e3
      | cons a L ihL =>
        intro hL
        rw [List.map_cons, List.cons_append, List.isChain_cons]
        refine ⟨?_, ihL fun t ht => hL t (List.mem_cons_of_mem _ ht)⟩
        intro y _ _ h
        exact absurd (hL a (List.mem_cons_self ..)) h
    rw [List.map_cons, List.flatten_cons, List.append_assoc]
    refine ⟨?_, ?_⟩
    · rw [List.isChain_append]
      refine ⟨?_, ih1, fun x _ y hy _ _ => hrest y hy⟩
      unfold entriesOf
      rw [e1, List.map_append]
      split
      · exact hA A e2
      · rw [List.singleton_append, List.isChain_cons]
        exact ⟨fun y _ h => absurd rfl h, hA A e2⟩
    · intro hq t ht
      unfold entriesOf at ht
      rw [if_neg (by rw [hp.number]; exact hq)] at ht
      injection ht with ht
      rw [← ht]
      rfl

theorem states_first {table : List Sym} {flags : List Nat} {finals : List (Nat × Int)} {q first : Nat} {ls : List (List Arc)}
    {ps : List Holder} (h : States table flags finals q first ls ps) : (∀ (k : Nat) (p : Holder), ps[k]? = some p → first ≤ p.first) ∧
    ∀ (j k : Nat) (p r : Holder), ps[j]? = some p → ps[k]? = some r → p.first = r.first → j = k := by
  induction h with
  | nil => exact ⟨(fun k p hp => by cases hp), (fun j k p r hp => by cases hp)⟩
  | @cons q first l ls p ps hp _ ih =>
    refine ⟨?_, ?_⟩
    · intro k r hr
      cases k with
      | zero =>
        injection hr with hr
        rw [← hr, hp.first]
      | succ k =>
        have := ih.1 k r hr
        omega
    · intro j k r s hr hs h
      cases j with
      | zero =>
        injection hr with hr
        subst hr
        cases k with
        | zero => rfl
        | succ k =>
          have := ih.1 k s hs
          have := hp.first
          omega
      | succ j =>
        cases k with
        | zero =>
          injection hs with hs
          subst hs
          have := ih.1 j r hr
          have := hp.first
          omega
        | succ k => rw [ih.2 j k r s hr hs h]

theorem convert_usable (order : List Sym → List Sym) (ho : ∀ l, (order l).Perm l) {tooFull : Nat → Nat → Bool}
    (htoo : ∀ n, 0 < n → tooFull 0 n = false) {enc : Int → Nat} {weightOf : Nat → Int} {g : Graph}
    (hE : ∀ w, HasWeight g w → weightOf (enc w) = w ∧ enc w ≠ noIndex) (hg : WF g) (hins : NoInsertions g) (hb : ByteGraph g) (hdef : IsRead g defaultSym) {C : Converted}
    (hC : convert order tooFull enc g = .ok C) (hi : C.indices.length ≤ targetStart) (ht : C.transitions.length ≤ targetStart) (limit : Int) :
    ∃ pos, Usable g (C.machine weightOf limit) C.table (C.inputs g) pos := by
  have hins' : ∀ a ∈ g.states.flatten, isInsertion a.inp = false := by
    intro a ha
    obtain ⟨q, hq⟩ := flatten_arcs ha
    exact hins q a hq
  rcases convert_made order ho htoo enc hg hins' with ⟨_, h2⟩ | ⟨_, h2⟩ | ⟨flags, u, ps, C', h1, _, hfd, m⟩
  · rw [hC] at h2; cases h2
  · rw [hC] at h2; cases h2
  rw [hC] at h1
  injection h1 with h1
  subst h1
  obtain ⟨hfdok, hfdiff⟩ := flagTable_ok hfd
  have hbytes := numbered_bytes m.numbered hb
  have hseen := m.numbered.bound
  have hsize := m.size
  have hnoSymbol : noSymbol = 65535 := rfl
  obtain ⟨k1, k2, k3⟩ := noteAll_placed (C.table.map asBytes) 0 ⟨C.table.map asBytes, noSymbol, noSymbol, noSymbol⟩
  have hunk := special_number m.numbered.nodup hbytes k1
  have hdefault := special_number m.numbered.nodup hbytes k2
  have hident := special_number m.numbered.nodup hbytes k3
  have hF : ∀ x, (C.machine weightOf limit).kinds.Flag x ↔ ∃ s, C.table[x]? = some s ∧ Flags.isDiacritic s = true := hfdiff
  obtain ⟨hplain, hflag⟩ := m.flag hF
  have hspecial : ∀ {s : Sym} {k : Nat}, Flags.isDiacritic s = false → s ≠ epsilonSym →
      k = (if s ∈ C.table then C.table.idxOf s else noSymbol) → k ≠ noSymbol →
      k ≠ 0 ∧ ¬ (C.machine weightOf limit).kinds.Flag k := by
    intro s k hd hne hk hkn
    by_cases hm : s ∈ C.table
    · rw [if_pos hm] at hk
      have hget : C.table[k]? = some s := by
        rw [hk, List.getElem?_eq_getElem (List.idxOf_lt_length_of_mem hm), List.getElem_idxOf]
      refine ⟨?_, ?_⟩
      · intro h0
        rw [h0, m.numbered.zero] at hget
        injection hget with hget
        exact hne hget.symm
      · intro hf
        obtain ⟨s', h1, h2⟩ := (hF k).mp hf
        rw [hget] at h1
        injection h1 with h1
        rw [← h1, hd] at h2
        cases h2
    · rw [if_neg hm] at hk
      exact absurd hk hkn
  have hin : ∀ x, IsInput (C.machine weightOf limit).kinds (C.inputs g) x → x < C.seen := by
    rintro x ⟨_, hxn, _, h | h | ⟨⟨hr1, hr2⟩, h | h⟩⟩
    · exact h
    · exact special_read m.numbered default_plain (by decide) hdef (by rw [h]; exact hdefault) hxn
    · exact special_read m.numbered identity_plain (by decide) hr1 (by rw [h]; exact hident) hxn
    · exact special_read m.numbered unknown_plain (by decide) hr2 (by rw [h]; exact hunk) hxn
  have hat : (C.machine weightOf limit).alphabet.table = C.table.map asBytes := ofTable_table _
  have hats : (C.machine weightOf limit).kinds.al.table.length = C.table.length := by
    show (C.machine weightOf limit).alphabet.table.length = _
    rw [hat, List.length_map]
  have hTab : TableOf g C.table := by
    refine ⟨m.numbered.nodup, m.numbered.zero, fun q a ha => ?_, m.numbered.all, ?_⟩
    · obtain ⟨h1, h2, _⟩ := m.numbered.arc a (arcs_flatten ha)
      exact ⟨h1, h2⟩
    · intro x hx
      rcases m.numbered.only x hx with h1 | h1 | ⟨a, ha, h1⟩
      · exact .inl h1
      · exact .inr (.inl h1)
      · obtain ⟨q, hq⟩ := flatten_arcs ha
        exact .inr (.inr ⟨q, a, hq, h1⟩)
  refine ⟨posOf ps, hTab, ⟨hg.nonempty, ?_, ?_, ?_, hi, ht⟩, ⟨?_, hseen.2, ?_, ?_, ?_, hfdok.operations, ?_⟩, hF, ?_, hat, hunk, hident, hdefault, ?_, ?_, ?_, ?_⟩
  · intro q hq a ha
    obtain ⟨b, hb, rfl⟩ := List.mem_map.mp ha
    exact hg.targets q b hb
  · obtain ⟨p, hp, hnum, hpos, hok, _⟩ := m.state hg.nonempty
    rw [hpos, Holder.place, if_neg, m.start p hp]
    unfold Holder.simple
    rw [hok.start hnum]
    simp
  · intro q hq
    have hlt : q < ps.length := by rw [states_length m.states]; exact hq
    have hp := List.getElem?_eq_getElem hlt
    cases hs : (ps[q]).simple with
    | false => exact .inl (Made.inIndex (M := C.machine weightOf limit) m hF rfl hE hin hi hq hp hs)
    | true => exact .inr (Made.inTransitions (M := C.machine weightOf limit) m hF rfl hE rfl hq hp hs)
  · rw [hats]
    exact hsize
  · intro h
    obtain ⟨s, h1, _⟩ := (hF _).mp h
    have := (List.getElem?_eq_some_iff.mp h1).1
    omega
  · exact hplain 0 (by omega)
  · rintro x hxn (h | h | h)
    · exact hspecial identity_plain (by decide) (by rw [h]; exact hident) hxn
    · exact hspecial unknown_plain (by decide) (by rw [h]; exact hunk) hxn
    · exact hspecial default_plain (by decide) (by rw [h]; exact hdefault) hxn
  · intro q hq a ha
    rw [hats]
    obtain ⟨b, hb, rfl⟩ := List.mem_map.mp ha
    obtain ⟨h1, h2⟩ := hTab.arcs q b hb
    exact ⟨List.idxOf_lt_length_of_mem h1, List.idxOf_lt_length_of_mem h2⟩
  · intro q hq r hr h
    obtain ⟨p, hp, hnum, hpos, hok, _, _, pre, _, _, _, hpre, _⟩ := m.state hq
    obtain ⟨p', hp', hnum', hpos', hok', _, _, pre', _, _, _, hpre', _⟩ := m.state hr
    have low : ∀ {p : Holder}, p ∈ ps → p.simple = false → p.start < targetStart := by
      intro p hp hs
      have := m.packed.start p hp hs
      have := (List.getElem?_eq_some_iff.mp this).1
      obtain ⟨ys, e1, e2, _⟩ := m.indices
      have : C.indices.length = u.length + C.seen := by rw [e1, List.length_append, List.length_replicate, e2]
      omega
    have one : ∀ {p : Holder} {pre : List Trans}, pre.length + (if p.number = 0 then 0 else 1) = p.first →
        HolderOK flags ((g.arcs p.number).map (numberArc C.table)) p → p.simple = true → 1 ≤ p.first := by
      intro p pre h1 h2 h3
      rw [if_neg] at h1
      · omega
      · intro h
        unfold Holder.simple at h3
        rw [h2.start h] at h3
        cases h3
    rw [hpos, hpos', Holder.place, Holder.place] at h
    rw [← hnum] at hok
    rw [← hnum'] at hok'
    cases hs : p.simple with
    | false =>
      rw [if_neg (by rw [hs]; simp)] at h
      have h3 := low (List.mem_of_getElem? hp) hs
      cases hs' : p'.simple with
      | false =>
        rw [if_neg (by rw [hs']; simp)] at h
        have h1 := m.packed.start p (List.mem_of_getElem? hp) hs
        have h2 := m.packed.start p' (List.mem_of_getElem? hp') hs'
        rw [h, h2] at h1
        injection h1 with h1
        injection h1 with h1
        injection h1 with h1
        omega
      | true =>
        rw [if_pos hs'] at h
        have := one hpre' hok' hs'
        omega
    | true =>
      rw [if_pos hs] at h
      have h4 := one hpre hok hs
      cases hs' : p'.simple with
      | false =>
        rw [if_neg (by rw [hs']; simp)] at h
        have := low (List.mem_of_getElem? hp') hs'
        omega
      | true =>
        rw [if_pos hs'] at h
        have := one hpre' hok' hs'
        exact (states_first m.states).2 q r p p' hp hp' (by omega)
  · intro x h0 hx s hs
    refine ⟨m.numbered.plain x s hx hs, ?_⟩
    obtain ⟨a, ha, h⟩ := m.numbered.input x s h0 hx hs
    obtain ⟨q, hq⟩ := flatten_arcs ha
    exact ⟨q, a, hq, h⟩
  · intro q a ha hd
    obtain ⟨h1, _, h3, _⟩ := m.numbered.arc a (arcs_flatten ha)
    have := h3 hd
    rw [Made.number h1] at this
    exact this
  · intro q hq hh
    obtain ⟨p, hp, hnum, hpos, hok, _, _, pre, post, t, hts, hfirst, _⟩ := m.state hq
    cases hs : p.simple with
    | false =>
      have := m.packed.start p (List.mem_of_getElem? hp) hs
      have := (List.getElem?_eq_some_iff.mp this).1
      obtain ⟨ys, e1, e2, _⟩ := m.indices
      have : C.indices.length = u.length + C.seen := by rw [e1, List.length_append, List.length_replicate, e2]
      rw [hpos, Holder.place, if_neg (by rw [hs]; simp)] at hh
      omega
    | true =>
      have hq0 : p.number ≠ 0 := by
        intro h
        unfold Holder.simple at hs
        rw [hok.start h] at hs
        cases hs
      rw [if_neg hq0] at hfirst
      have hpos' : posOf ps q = p.first + targetStart - 1 := by rw [hpos, Holder.place, if_pos hs]
      refine ⟨markerOf enc p, ?_, rfl, rfl⟩
      show C.transitions[posOf ps q - targetStart]? = _
      rw [show posOf ps q - targetStart = pre.length by omega, hts, entriesOf, if_neg hq0]
      simp
  · intro i t t' h1 h2
    have hc := (states_sorted (flags_facts m.numbered).1 (enc := enc) (all := ps) m.states).1
    rw [← m.trans, List.isChain_iff_getElem] at hc
    obtain ⟨h3, h4⟩ := List.getElem?_eq_some_iff.mp h2
    obtain ⟨h5, h6⟩ := List.getElem?_eq_some_iff.mp h1
    have := hc i h3
    unfold Neighbours at this
    rw [← h4, ← h6]
    exact this

/-- **C38.**  The tables that are made for a graph represent the graph: every transition has its symbols, its target and its weight; a
lookup of an input symbol (or of the transitions that read nothing) in a state finds just the transitions of that state, and final
states have their weights.  `order`, `tooFull`: see `C38_total`; `enc` and `weightOf` are the bits of a weight and the weight of bits.
Missing: transitions that read insertion symbols, and a default symbol that is in the alphabet but is not read. -/
theorem C38_partial (order : List Sym → List Sym) (ho : ∀ l, (order l).Perm l) {tooFull : Nat → Nat → Bool}
    (htoo : ∀ n, 0 < n → tooFull 0 n = false) {enc : Int → Nat} {weightOf : Nat → Int} {g : Graph}
    (hE : ∀ w, HasWeight g w → weightOf (enc w) = w ∧ enc w ≠ noIndex) (hg : WF g) (hins : NoInsertions g) (hb : ByteGraph g) (hdef : IsRead g defaultSym) {C : Converted}
    (hC : convert order tooFull enc g = .ok C) (hi : C.indices.length ≤ targetStart) (ht : C.transitions.length ≤ targetStart) (limit : Int) :
    TableOf g C.table ∧ ∃ pos, Represents (C.machine weightOf limit)
      ⟨C.seen, IsRead g Basic.identity ∧ IsRead g Basic.unknown⟩ (netOf C.table g) pos := by
  obtain ⟨pos, h⟩ := convert_usable order ho htoo hE hg hins hb hdef hC hi ht limit
  exact ⟨h.tables, pos, h.represents⟩

end Hfst.Ol
