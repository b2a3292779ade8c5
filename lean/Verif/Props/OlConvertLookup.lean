import Verif.Props.OlConvert
import Verif.Props.OlLookup
import Verif.Props.OlEncode
import Verif.Props.FlagEngines
import Verif.Spec.Lookup

/-!
# Optimized lookup: what a lookup in a converted graph finds

The analyses are those of the specification of lookup in a graph (`Verif.Spec.Lookup`).
-/
namespace Hfst.Ol
open Hfst.Basic

/-- What reading a string does: new symbols are short parts of the string that are not known. -/
theorem reads_facts {n size : Nat} {T T' : List Bytes} {s : Bytes} {ks : Option (List Nat)} (h : Reads n size T s ks T') :
    n ≤ T.length → size ≤ T.length → 0 < T.length → (∀ x, T[0]? = some x → ¬ x <:+: s) →
    (∃ extra, T' = T ++ extra ∧ ∀ y ∈ extra, y <:+: s ∧ y.length ≤ 4 ∧ ∀ k < n, T[k]? ≠ some y) ∧
    ∀ l, ks = some l → ∀ k ∈ l, k ≠ 0 ∧ k < T'.length ∧ (k < n ∨ size ≤ k) := by
  induction h with
  | done =>
    intro _ _ _ _
    refine ⟨⟨[], by simp, by simp⟩, ?_⟩
    intro l hl k hk
    injection hl with hl
    rw [← hl] at hk
    cases hk
  | @known T T' x rest k ks hlong _ ih =>
    intro h1 h2 h3 h4
    obtain ⟨⟨extra, e1, e2⟩, e3⟩ := ih h1 h2 h3 fun y hy hsub => h4 y hy (hsub.trans (List.suffix_append x rest).isInfix)
    refine ⟨⟨extra, e1, fun y hy => ⟨(e2 y hy).1.trans (List.suffix_append x rest).isInfix, (e2 y hy).2⟩⟩, ?_⟩
    intro l hl j hj
    cases ks with
    | none => cases hl
    | some l' =>
      injection hl with hl
      rw [← hl] at hj
      rcases List.mem_cons.mp hj with rfl | hj
      · refine ⟨?_, ?_, hlong.knows.1⟩
        · intro h0
          have := hlong.knows.2
          rw [h0] at this
          exact h4 x this (List.prefix_append x rest).isInfix
        · rw [e1, List.length_append]
          have := (List.getElem?_eq_some_iff.mp hlong.knows.2).1
          omega
      · exact e3 l' rfl j hj
  | @new T T' x rest c ks hun hc hx _ ih =>
    intro h1 h2 h3 h4
    obtain ⟨⟨extra, e1, e2⟩, e3⟩ := ih (by rw [List.length_append]; omega) (by rw [List.length_append]; omega)
      (by rw [List.length_append]; omega) (fun y hy hsub => by
        rw [List.getElem?_append_left h3] at hy
        exact h4 y hy (hsub.trans (List.suffix_append x rest).isInfix))
    refine ⟨⟨x :: extra, by rw [e1, List.append_assoc]; rfl, ?_⟩, ?_⟩
    · intro y hy
      rcases List.mem_cons.mp hy with rfl | hy
      · refine ⟨(List.prefix_append y rest).isInfix, by rw [hx]; exact nByte_le c, ?_⟩
        intro k hk hget
        exact hun y k ⟨.inl hk, hget⟩ (List.prefix_append y rest)
      · obtain ⟨f1, f2, f3⟩ := e2 y hy
        refine ⟨f1.trans (List.suffix_append x rest).isInfix, f2, ?_⟩
        intro k hk hget
        apply f3 k hk
        rw [List.getElem?_append_left (by omega)]
        exact hget
    · intro l hl j hj
      cases ks with
      | none => cases hl
      | some l' =>
        injection hl with hl
        rw [← hl] at hj
        rcases List.mem_cons.mp hj with rfl | hj
        · refine ⟨by omega, ?_, .inr h2⟩
          rw [e1, List.length_append, List.length_append, List.length_singleton]
          omega
        · exact e3 l' rfl j hj
  | bad _ _ =>
    intro _ _ _ _
    refine ⟨⟨[], by simp, by simp⟩, ?_⟩
    intro l hl
    cases hl

/-! ## Flags -/

theorem run_filter (t : Flags.SFlags) (ht : t.errorFlag = false) : ∀ w : List Str, t.run (w.filter Flags.isDiacritic) = t.run w := by
  intro w
  induction w generalizing t with
  | nil => rfl
  | cons s w ih =>
    rw [List.filter_cons]
    by_cases hd : Flags.isDiacritic s = true
    · rw [if_pos hd, Flags.SFlags.run, Flags.SFlags.run]
      by_cases he : (t.insertSymbol s).errorFlag = true
      · rw [if_pos he, if_pos he]
      · rw [if_neg he, if_neg he]
        exact ih _ (by simpa using he)
    · rw [if_neg hd, Flags.SFlags.run]
      have : t.insertSymbol s = t := by
        unfold Flags.SFlags.insertSymbol
        rw [if_neg hd]
      rw [this, ht]
      exact ih t ht

theorem valid_filter (w : List Str) : Flags.sIsValidString (w.filter Flags.isDiacritic) = Flags.sIsValidString w := run_filter _ rfl w

theorem defineAll_values : ∀ (defs : List (Nat × Str)) {t t' : Flags.FdTable Nat}, t.defineAll defs = some t' →
    t'.valueMap.length ≤ t.valueMap.length + defs.length
  | [], t, t', h => by
    injection h with h
    rw [h]
    exact Nat.le_refl _
  | (x, s) :: defs, t, t', h => by
    rw [Flags.FdTable.defineAll, Option.bind_eq_some_iff] at h
    obtain ⟨t1, h1, h2⟩ := h
    have := defineAll_values defs h2
    have : t1.valueMap.length ≤ t.valueMap.length + 1 := by
      unfold Flags.FdTable.define at h1
      split at h1
      · split at h1
        · cases h1
        · dsimp only at h1
          split at h1
          · rename_i hv
            injection h1 with h1
            rw [← h1]
            unfold Flags.addValue at hv
            split at hv
            · injection hv with hv
              rw [← hv]
              exact Nat.le_succ _
            · rw [Option.map_eq_some_iff] at hv
              obtain ⟨_, _, hv⟩ := hv
              rw [← hv]
              exact Nat.le_refl _
          · cases h1
      · cases h1
    rw [List.length_cons]
    omega

/-- The flags of a converted graph are checked as the specification says. -/
theorem passes_valid {table : List Sym} {fd : Flags.FdTable Nat} (h : flagTable table = some fd) (h0 : table[0]? = some epsilonSym)
    (hsize : table.length ≤ 32767) (hne : ∀ x ∈ table, Flags.NoEmptyValue x) {w : List Nat} (hw : ∀ x ∈ w, x < table.length) :
    fd.passes (Flags.FdState.init fd.numFeatures) w = some (Flags.sIsValidString (w.map fun x => (table[x]?).getD [])) := by
  have hdefs : (table.zipIdx.filterMap fun (x, i) => if Flags.isDiacritic x then some (i, x) else none) =
      ((List.range table.length).filter fun i => Flags.isDiacritic ((table[i]?).getD [])).map fun i => (i, (table[i]?).getD []) := by
    have key : ∀ (l : List Sym) (k : Nat) (f : Nat → Sym), (∀ i, i < l.length → l[i]? = some (f (k + i))) →
        ((l.zipIdx k).filterMap fun (x, i) => if Flags.isDiacritic x then some (i, x) else none) =
          ((List.range' k l.length).filter fun i => Flags.isDiacritic (f i)).map fun i => (i, f i) := by
      intro l
      induction l with
      | nil => intro k f _; rfl
      | cons x l ih =>
        intro k f hf
        have hx : x = f k := by
          have := hf 0 (by simp)
          injection this
        rw [List.zipIdx_cons, List.length_cons, List.range'_succ, List.filterMap_cons, List.filter_cons]
        have ih' := ih (k + 1) f fun i hi => by
          have := hf (i + 1) (by simpa using hi)
          rw [show k + 1 + i = k + (i + 1) by omega]
          exact this
        dsimp only
        rw [hx]
        by_cases hd : Flags.isDiacritic (f k) = true
        · rw [if_pos hd, if_pos hd, List.map_cons]
          dsimp only
          rw [← ih']
        · rw [if_neg hd, if_neg hd]
          dsimp only
          rw [← ih']
    rw [List.range_eq_range']
    apply key table 0 fun i => (table[i]?).getD []
    intro i hi
    rw [Nat.zero_add, List.getElem?_eq_getElem hi]
    rfl
  unfold flagTable at h
  rw [hdefs] at h
  refine Flags.C03_engines_agree_partial (fun x => (table[x]?).getD []) _ fd h ?_ ?_ w ?_
  · have h1 := defineAll_values _ h
    rw [List.length_map] at h1
    have h2 : ((List.range table.length).filter fun i => Flags.isDiacritic ((table[i]?).getD [])).length ≤ table.length - 1 := by
      cases ht : table with
      | nil => rw [ht] at h0; cases h0
      | cons x l =>
        rw [ht] at h0
        injection h0 with h0
        subst h0
        rw [List.length_cons, List.range_succ_eq_map, List.filter_cons]
        have : Flags.isDiacritic (((epsilonSym :: l)[0]?).getD []) = false := epsilon_plain
        rw [if_neg (by rw [this]; simp)]
        refine Nat.le_trans (List.length_filter_le _ _) ?_
        rw [List.length_map, List.length_range]
        omega
    have h3 : (Flags.FdTable.empty : Flags.FdTable Nat).valueMap.length = 1 := rfl
    have : 0 < table.length := (List.getElem?_eq_some_iff.mp h0).1
    omega
  · intro x hx
    rw [List.mem_filter, List.mem_range] at hx
    rw [List.getElem?_eq_getElem hx.1]
    exact hne _ (List.getElem_mem hx.1)
  · intro x hx hd
    rw [List.mem_filter, List.mem_range]
    exact ⟨hw x hx, hd⟩

/-! ## Runs -/

/-- The transition with numbers. -/
def numArc (table : List Sym) (a : Arc) : NArc := ⟨table.idxOf a.inp, table.idxOf a.out, a.target, a.weight⟩

/-- The symbol with the number `k`. -/
def nameOf (T : List Bytes) (k : Nat) : Sym := asText ((T[k]?).getD [])

/-- A symbol of the input: an input symbol of the graph, or a symbol that the graph does not have. -/
def Token (table : List Sym) (count : Nat) (T : List Bytes) (x : Nat) : Prop :=
  x ≠ 0 ∧ x < T.length ∧ (x < count ∨ (table.length ≤ x ∧ nameOf T x ∉ table ∧ (nameOf T x).length < 5))

/-- The steps of a run in the graph and in the net. -/
def SameStep (table : List Sym) (T : List Bytes) (A : NArc × Option Nat) (x : Step) : Prop :=
  A.1 = numArc table x.1 ∧ x.2 = A.2.map (nameOf T)

section
variable {g : Graph} {M : Machine} {table : List Sym} {n : Inputs} {pos : Nat → Nat}

theorem idx_inj {table : List Sym} {x y : Sym} (hx : x ∈ table) (hy : y ∈ table) (h : table.idxOf x = table.idxOf y) : x = y := by
  have h1 := List.getElem_idxOf (List.idxOf_lt_length_of_mem hx)
  have h2 := List.getElem_idxOf (List.idxOf_lt_length_of_mem hy)
  simp only [h] at h1
  exact h1.symm.trans h2

theorem idx_get {table : List Sym} {x : Sym} (hx : x ∈ table) : table[table.idxOf x]? = some x := by
  rw [List.getElem?_eq_getElem (List.idxOf_lt_length_of_mem hx), List.getElem_idxOf]

/-- What is needed to compare runs. -/
structure Setting (g : Graph) (M : Machine) (table : List Sym) (n : Inputs) (pos : Nat → Nat) (T : List Bytes) : Prop where
  usable : Usable g M table n pos
  orig : M.orig = table.length
  alpha : AlphaOK g
  bytes : ∀ x ∈ table, ByteSym x
  default : defaultSym ∉ table
  small : table.length ≤ noSymbol
  inputs : n.count ≤ table.length
  table : ∃ extra, T = table.map asBytes ++ extra

variable {T : List Bytes}

theorem Setting.name (h : Setting g M table n pos T) {x : Nat} {s : Sym} (hs : table[x]? = some s) : nameOf T x = s ∧ T[x]? = some (asBytes s) := by
  obtain ⟨extra, e⟩ := h.table
  have hlt := (List.getElem?_eq_some_iff.mp hs).1
  have hT : T[x]? = some (asBytes s) := by
    rw [e, List.getElem?_append_left (by rw [List.length_map]; exact hlt), List.getElem?_map, hs]
    rfl
  refine ⟨?_, hT⟩
  unfold nameOf
  rw [hT]
  exact text_bytes (h.bytes s (List.mem_of_getElem? hs))

/-- The kinds of symbols during the lookup. -/
def kindsOf (M : Machine) (T : List Bytes) : Kinds := (M.withInput T []).kinds

theorem Setting.free (h : Setting g M table n pos T) {q : Nat} {a : Arc} (ha : a ∈ g.arcs q) :
    (kindsOf M T).Free (numArc table a) ↔ a.inp = Basic.epsilon ∨ Flags.isDiacritic a.inp = true := by
  have hin := (h.usable.tables.arcs q a ha).1
  have hzero : table.idxOf a.inp = 0 ↔ a.inp = Basic.epsilon := by
    constructor
    · intro h0
      have h1 := idx_get hin
      rw [h0, h.usable.tables.epsilon] at h1
      injection h1 with h1
      exact h1.symm
    · intro h0
      have hm : Basic.epsilon ∈ table := List.mem_of_getElem? h.usable.tables.epsilon
      have h1 := idx_get hm
      obtain ⟨b1, c1⟩ := List.getElem?_eq_some_iff.mp h.usable.tables.epsilon
      rw [h0]
      have := h.usable.tables.nodup.idxOf_getElem 0 b1
      rw [c1] at this
      exact this
  have hflag : M.kinds.Flag (table.idxOf a.inp) ↔ Flags.isDiacritic a.inp = true := by
    rw [h.usable.flags]
    constructor
    · rintro ⟨s, h1, h2⟩
      rw [idx_get hin] at h1
      injection h1 with h1
      rw [h1]
      exact h2
    · intro hd
      exact ⟨_, idx_get hin, hd⟩
  show table.idxOf a.inp = 0 ∨ M.kinds.Flag (table.idxOf a.inp) ↔ _
  rw [hzero, hflag]

theorem Setting.special (h : Setting g M table n pos T) {s x : Sym} (hx : x ∈ table) {k : Nat}
    (hk : k = if s ∈ table then table.idxOf s else noSymbol) : table.idxOf x = k ↔ x = s := by
  constructor
  · intro he
    by_cases hm : s ∈ table
    · rw [if_pos hm] at hk
      exact idx_inj hx hm (he.trans hk)
    · rw [if_neg hm] at hk
      have := List.idxOf_lt_length_of_mem hx
      have := h.small
      omega
  · intro he
    subst he
    rw [if_pos hx] at hk
    exact hk.symm

theorem Setting.takes (h : Setting g M table n pos T) {q : Nat} {a : Arc} (ha : a ∈ g.arcs q) {x : Nat} (hx : Token table n.count T x) :
    Takes (kindsOf M T) (netOf table g) q (numArc table a) (some x) ↔ Fits g.alphabet (a, some (nameOf T x)) := by
  have hin := (h.usable.tables.arcs q a ha).1
  have hlt := List.idxOf_lt_length_of_mem hin
  have hsm := h.small
  have hdef : ¬ ((numArc table a).input ≠ noSymbol ∧ (numArc table a).input = (kindsOf M T).al.default ∧
      ∀ b ∈ (netOf table g).arcs q, ¬ (kindsOf M T).Free b ∧ ¬ (kindsOf M T).Direct x b) := by
    rintro ⟨h1, h2, _⟩
    have h2 : table.idxOf a.inp = M.alphabet.default := h2
    rw [h.usable.default, if_neg h.default] at h2
    exact h1 h2
  have horig : (kindsOf M T).orig = table.length := h.orig
  show (kindsOf M T).Direct x (numArc table a) ∨ _ ↔ _
  rw [or_iff_left hdef]
  unfold Kinds.Direct
  rw [horig]
  obtain ⟨hx0, hxT, hcase⟩ := hx
  rcases hcase with hc | ⟨hc, hname, _⟩
  · have hxl : x < table.length := Nat.lt_of_lt_of_le hc h.inputs
    rw [if_pos hxl]
    have hget := List.getElem?_eq_getElem hxl
    obtain ⟨hn, _⟩ := h.name hget
    rw [hn]
    obtain ⟨_, r, b, hb, hbx⟩ := h.usable.read x (Nat.pos_of_ne_zero hx0) hc _ hget
    constructor
    · intro he
      left
      have he : table.idxOf a.inp = x := he
      have := idx_get hin
      rw [he, hget] at this
      injection this with this
      exact this.symm
    · rintro (he | ⟨_, hno⟩)
      · show table.idxOf a.inp = x
        rw [he]
        exact h.usable.tables.nodup.idxOf_getElem x hxl
      · exact absurd (hbx ▸ (h.alpha.arcs r b hb).1) hno
  · rw [if_neg (by omega)]
    have hid : (numArc table a).input = (kindsOf M T).al.identity ↔ a.inp = Basic.identity := h.special hin h.usable.identity
    have hun : (numArc table a).input = (kindsOf M T).al.unknown ↔ a.inp = Basic.unknown := h.special hin h.usable.unknown
    rw [hid, hun]
    constructor
    · rintro ⟨_, he⟩
      exact .inr ⟨he, fun hm => hname (h.usable.tables.alphabet _ hm)⟩
    · rintro (he | ⟨he, _⟩)
      · have he : a.inp = nameOf T x := he
        exact absurd (he ▸ hin) hname
      · refine ⟨?_, he⟩
        show table.idxOf a.inp ≠ noSymbol
        omega

/-- Runs in the net are runs in the graph. -/
theorem Setting.run_graph (h : Setting g M table n pos T) : ∀ (L : List (NArc × Option Nat)) {q r : Nat},
    NRun (kindsOf M T) (netOf table g) q L r → (∀ x ∈ readBy L, Token table n.count T x) →
    ∃ l, Run g q l r ∧ List.Forall₂ (SameStep table T) L l
  | [], q, r, hr, _ => by
    cases hr
    exact ⟨[], .nil q, .nil⟩
  | (A, c) :: L, q, r, hr, hk => by
    cases hr with
    | cons h1 h2 h3 =>
      obtain ⟨a, ha, rfl⟩ := List.mem_map.mp h1
      have hk' : ∀ x ∈ readBy L, Token table n.count T x := by
        intro x hx
        apply hk
        unfold readBy at hx ⊢
        rw [List.filterMap_cons]
        cases c with
        | none => exact hx
        | some c => exact List.mem_cons_of_mem _ hx
      obtain ⟨l, f1, f2⟩ := h.run_graph L h3 hk'
      refine ⟨(a, c.map (nameOf T)) :: l, .cons ha ?_ f1, .cons ⟨rfl, rfl⟩ f2⟩
      cases c with
      | none => exact (h.free ha).mp h2
      | some x => exact (h.takes ha (hk x (by unfold readBy; exact List.mem_cons_self ..))).mp h2

/-- Runs in the graph are runs in the net. -/
theorem Setting.run_net (h : Setting g M table n pos T) : ∀ (l : List Step) {q r : Nat} {ks : List Nat}, Run g q l r →
    inputOf l = ks.map (nameOf T) → (∀ x ∈ ks, Token table n.count T x) →
    ∃ L, NRun (kindsOf M T) (netOf table g) q L r ∧ readBy L = ks ∧ List.Forall₂ (SameStep table T) L l
  | [], q, r, ks, hr, hi, _ => by
    cases hr
    cases ks with
    | nil => exact ⟨[], .nil, rfl, .nil⟩
    | cons k ks => cases hi
  | (a, c) :: l, q, r, ks, hr, hi, hk => by
    cases hr with
    | cons h1 h2 h3 =>
      cases c with
      | none =>
        obtain ⟨L, f1, f2, f3⟩ := h.run_net l h3 hi hk
        exact ⟨(numArc table a, none) :: L, .cons (List.mem_map.mpr ⟨a, h1, rfl⟩) ((h.free h1).mpr h2) f1, f2, .cons ⟨rfl, rfl⟩ f3⟩
      | some c =>
        cases ks with
        | nil => cases hi
        | cons k ks =>
          have hi' : c :: inputOf l = nameOf T k :: ks.map (nameOf T) := hi
          injection hi' with e1 e2
          obtain ⟨L, f1, f2, f3⟩ := h.run_net l h3 e2 fun x hx => hk x (List.mem_cons_of_mem _ hx)
          subst e1
          refine ⟨(numArc table a, some k) :: L, .cons (List.mem_map.mpr ⟨a, h1, rfl⟩) ((h.takes h1 (hk k (List.mem_cons_self ..))).mpr h2) f1,
            ?_, .cons ⟨rfl, rfl⟩ f3⟩
          show k :: readBy L = k :: ks
          rw [f2]

theorem same_weight {L : List (NArc × Option Nat)} {l : List Step} (h : List.Forall₂ (SameStep table T) L l) : weightBy L = weightOf l := by
  induction h with
  | nil => rfl
  | cons h1 _ ih =>
    unfold weightBy weightOf at ih ⊢
    rw [List.map_cons, List.map_cons, List.sum_cons, List.sum_cons, ih, h1.1]
    rfl

theorem same_read {L : List (NArc × Option Nat)} {l : List Step} (h : List.Forall₂ (SameStep table T) L l) :
    inputOf l = (readBy L).map (nameOf T) := by
  induction h with
  | nil => rfl
  | @cons A x L l h1 _ ih =>
    unfold readBy inputOf at ih ⊢
    rw [List.filterMap_cons, List.filterMap_cons, h1.2]
    cases A.2 with
    | none => exact ih
    | some c => exact congrArg _ ih

end

/-- The bytes that are written for an output symbol. -/
def outBytes (x : Sym) : Bytes := if x = Basic.epsilon then [] else asBytes x

/-- Output symbols that stand for what was read are only on transitions with identity on both sides. -/
def PlainOutputs (g : Graph) : Prop := ∀ q, ∀ a ∈ g.arcs q,
  (a.out = Basic.identity ∨ a.out = Basic.unknown → a.inp = Basic.identity) ∧ (a.inp = Basic.identity → a.out = Basic.identity)

section
variable {g : Graph} {M : Machine} {table : List Sym} {n : Inputs} {pos : Nat → Nat} {T : List Bytes}

theorem Setting.string (h : Setting g M table n pos T) {x : Sym} (hx : x ∈ table) :
    (kindsOf M T).al.string (table.idxOf x) = some (outBytes x) := by
  unfold Alphabet.string outBytes
  by_cases he : x = Basic.epsilon
  · have : table.idxOf x = 0 := by
      obtain ⟨b1, c1⟩ := List.getElem?_eq_some_iff.mp h.usable.tables.epsilon
      have := h.usable.tables.nodup.idxOf_getElem 0 b1
      rw [c1] at this
      rw [he]
      exact this
    rw [if_pos this, if_pos he]
  · have : table.idxOf x ≠ 0 := by
      intro h0
      have h1 := idx_get hx
      rw [h0, h.usable.tables.epsilon] at h1
      injection h1 with h1
      exact he h1.symm
    rw [if_neg this, if_neg he]
    exact (h.name (idx_get hx)).2

theorem bytes_text (b : Bytes) : asBytes (asText b) = b := by
  unfold asBytes asText
  rw [List.map_map]
  rw [List.map_congr_left (g := id), List.map_id]
  intro c _
  show UInt8.ofNat (Char.ofNat c.toNat).toNat = c
  have hc : c.toNat < 256 := c.toNat_lt
  have hv : c.toNat.isValidChar := .inl (by omega)
  have : (Char.ofNat c.toNat).toNat = c.toNat := by
    unfold Char.ofNat
    rw [dif_pos hv]
    rfl
  rw [this]
  exact UInt8.ofNat_toNat

/-- What is written for a run. -/
theorem Setting.strings (h : Setting g M table n pos T) (hp : PlainOutputs g) : ∀ (L : List (NArc × Option Nat)) (l : List Step) {q r : Nat},
    Run g q l r → List.Forall₂ (SameStep table T) L l → (∀ x ∈ readBy L, Token table n.count T x) →
    ∃ v, tapeStrings (kindsOf M T).al (L.map (kindsOf M T).shown) = some v ∧ v.map (·.2) = l.map fun x => outBytes (shown x).2
  | [], [], _, _, _, _, _ => ⟨[], rfl, rfl⟩
  | (A, c) :: L, (a, d) :: l, q, r, hr, hs, hk => by
    cases hs with
    | cons h1 h2 =>
      cases hr with
      | cons g1 g2 g3 =>
        obtain ⟨e1, e2⟩ := h1
        have e1 : A = numArc table a := e1
        have e2 : d = c.map (nameOf T) := e2
        subst e1 e2
        have hk' : ∀ x ∈ readBy L, Token table n.count T x := by
          intro x hx
          apply hk
          unfold readBy at hx ⊢
          rw [List.filterMap_cons]
          cases c with
          | none => exact hx
          | some c => exact List.mem_cons_of_mem _ hx
        obtain ⟨v, hv1, hv2⟩ := h.strings hp L l g3 h2 hk'
        obtain ⟨hin, hout⟩ := h.usable.tables.arcs q a g1
        have hsi := h.string hin
        have hso := h.string hout
        rw [List.map_cons]
        cases c with
        | none =>
          refine ⟨(outBytes a.inp, outBytes a.out) :: v, ?_, ?_⟩
          · show tapeStrings _ ((table.idxOf a.inp, table.idxOf a.out) :: _) = _
            unfold tapeStrings
            dsimp only
            rw [hsi, hso, hv1]
          · rw [List.map_cons, List.map_cons, hv2]
            rfl
        | some x =>
          have hx : Token table n.count T x := hk x (by unfold readBy; exact List.mem_cons_self ..)
          have hxs : (kindsOf M T).al.string x = some (outBytes (nameOf T x)) := by
            unfold Alphabet.string outBytes nameOf
            rw [if_neg hx.1]
            show T[x]? = _
            rw [List.getElem?_eq_getElem hx.2.1]
            dsimp only [Option.getD_some]
            rw [if_neg, bytes_text]
            intro he
            have hnx : nameOf T x = Basic.epsilon := by
              unfold nameOf
              rw [List.getElem?_eq_getElem hx.2.1]
              exact he
            rcases hx.2.2 with hc | ⟨_, hc, _⟩
            · have hxl : x < table.length := Nat.lt_of_lt_of_le hc h.inputs
              have hget := List.getElem?_eq_getElem hxl
              obtain ⟨hn, _⟩ := h.name hget
              obtain ⟨b1, c1⟩ := List.getElem?_eq_some_iff.mp h.usable.tables.epsilon
              have := (List.Nodup.getElem_inj_iff h.usable.tables.nodup (hi := hxl) (hj := b1)).mp (by rw [c1, ← hnx, hn])
              exact hx.1 this
            · rw [hnx] at hc
              exact hc (List.mem_of_getElem? h.usable.tables.epsilon)
          have hmeta : (kindsOf M T).al.isMeta (table.idxOf a.out) = decide (a.inp = Basic.identity) := by
            unfold Alphabet.isMeta
            rw [decide_eq_decide]
            have hun : table.idxOf a.out = (kindsOf M T).al.unknown ↔ a.out = Basic.unknown := h.special hout h.usable.unknown
            have hid : table.idxOf a.out = (kindsOf M T).al.identity ↔ a.out = Basic.identity := h.special hout h.usable.identity
            have hde : table.idxOf a.out = (kindsOf M T).al.default ↔ a.out = defaultSym := h.special hout h.usable.default
            rw [hun, hid, hde]
            obtain ⟨p1, p2⟩ := hp q a g1
            constructor
            · rintro ⟨_, h1 | h1 | h1⟩
              · exact p1 (.inr h1)
              · exact absurd (h1 ▸ hout) h.default
              · exact p1 (.inl h1)
            · intro h1
              have hlt := List.idxOf_lt_length_of_mem hout
              have := h.small
              exact ⟨by omega, .inr (.inr (p2 h1))⟩
          by_cases hai : a.inp = Basic.identity
          · refine ⟨(outBytes a.inp, outBytes (nameOf T x)) :: v, ?_, ?_⟩
            · show tapeStrings _ ((table.idxOf a.inp, if (kindsOf M T).al.isMeta (table.idxOf a.out) = true then x else table.idxOf a.out) :: _) = _
              rw [hmeta, if_pos (by simpa using hai)]
              unfold tapeStrings
              dsimp only
              rw [hsi, hxs, hv1]
            · rw [List.map_cons, List.map_cons, hv2]
              show _ = outBytes (if a.inp = Basic.identity then nameOf T x else a.out) :: _
              rw [if_pos hai]
          · refine ⟨(outBytes a.inp, outBytes a.out) :: v, ?_, ?_⟩
            · show tapeStrings _ ((table.idxOf a.inp, if (kindsOf M T).al.isMeta (table.idxOf a.out) = true then x else table.idxOf a.out) :: _) = _
              rw [hmeta, if_neg (by simpa using hai)]
              unfold tapeStrings
              dsimp only
              rw [hsi, hso, hv1]
            · rw [List.map_cons, List.map_cons, hv2]
              show _ = outBytes (if a.inp = Basic.identity then nameOf T x else a.out) :: _
              rw [if_neg hai]

theorem short_plain {s : Sym} (h : s.length < 5) : Flags.isDiacritic s = false := by
  unfold Flags.isDiacritic
  rw [if_pos h]

/-- The flags of a run. -/
theorem Setting.flags (h : Setting g M table n pos T) : ∀ (L : List (NArc × Option Nat)) (l : List Step) {q r : Nat},
    Run g q l r → List.Forall₂ (SameStep table T) L l → (∀ x ∈ readBy L, Token table n.count T x) →
    ((L.map (·.1.input)).map fun x => (table[x]?).getD []).filter Flags.isDiacritic = flagsOf l ∧ ∀ x ∈ L.map (·.1.input), x < table.length
  | [], [], _, _, _, _, _ => ⟨rfl, by simp⟩
  | (A, c) :: L, (a, d) :: l, q, r, hr, hs, hk => by
    cases hs with
    | cons h1 h2 =>
      cases hr with
      | cons g1 g2 g3 =>
        obtain ⟨e1, e2⟩ := h1
        have e1 : A = numArc table a := e1
        have e2 : d = c.map (nameOf T) := e2
        subst e1 e2
        have hk' : ∀ x ∈ readBy L, Token table n.count T x := by
          intro x hx
          apply hk
          unfold readBy at hx ⊢
          rw [List.filterMap_cons]
          cases c with
          | none => exact hx
          | some c => exact List.mem_cons_of_mem _ hx
        obtain ⟨v1, v2⟩ := h.flags L l g3 h2 hk'
        obtain ⟨hin, _⟩ := h.usable.tables.arcs q a g1
        refine ⟨?_, ?_⟩
        · unfold flagsOf at v1 ⊢
          rw [List.map_cons, List.map_cons, List.map_cons, List.filter_cons, List.filter_cons, v1]
          have hget : (table[(numArc table a).input]?).getD [] = a.inp := by
            show (table[table.idxOf a.inp]?).getD [] = a.inp
            rw [idx_get hin]
            rfl
          dsimp only
          rw [hget]
          cases c with
          | none => rfl
          | some x =>
            have hx : Token table n.count T x := hk x (by unfold readBy; exact List.mem_cons_self ..)
            have hn : Flags.isDiacritic (nameOf T x) = false := by
              rcases hx.2.2 with hc | ⟨_, _, hc⟩
              · have hxl : x < table.length := Nat.lt_of_lt_of_le hc h.inputs
                have hget := List.getElem?_eq_getElem hxl
                rw [(h.name hget).1]
                exact (h.usable.read x (Nat.pos_of_ne_zero hx.1) hc _ hget).1
              · exact short_plain hc
            have ha : Flags.isDiacritic a.inp = false := by
              rcases g2 with h3 | ⟨h3 | h3, _⟩
              · have h3 : a.inp = nameOf T x := h3
                rw [h3]
                exact hn
              · have h3 : a.inp = Basic.identity := h3
                rw [h3]
                exact identity_plain
              · have h3 : a.inp = Basic.unknown := h3
                rw [h3]
                exact unknown_plain
            have hsh : (shown (a, some (nameOf T x))).1 = nameOf T x := rfl
            rw [ha]
            show _ = if Flags.isDiacritic (nameOf T x) = true then _ else _
            rw [hn]
            rfl
        · intro x hx
          rw [List.map_cons] at hx
          rcases List.mem_cons.mp hx with rfl | hx
          · exact List.idxOf_lt_length_of_mem hin
          · exact v2 x hx

end

/-! ## Lookup -/

theorem convert_flags {order : List Sym → List Sym} {tooFull : Nat → Nat → Bool} {enc : Int → Nat} {g : Graph} {C : Converted}
    (h : convert order tooFull enc g = .ok C) : flagTable C.table = some C.fd := by
  unfold convert at h
  dsimp only at h
  split at h
  · cases h
  · obtain ⟨⟨P, ps⟩, _, h⟩ := bind_ok.mp h
    obtain ⟨is, _, h⟩ := bind_ok.mp h
    obtain ⟨ts, _, h⟩ := bind_ok.mp h
    split at h
    · cases h
    · rename_i hf
      injection h with h
      rw [← h]
      exact hf

/-- What a graph must be like, so that the lookup in the converted transducer finds what is in the graph. -/
structure Suitable (g : Graph) : Prop where
  wf : WF g
  alpha : AlphaOK g
  bytes : ByteGraph g
  text : ∀ x ∈ g.alphabet, x ≠ [] ∧ 0 ∉ asBytes x ∧ Chars (asBytes x)
  noInsertions : NoInsertions g
  noDefault : defaultSym ∉ g.alphabet
  outputs : PlainOutputs g
  values : ∀ x ∈ g.alphabet, Flags.NoEmptyValue x
  /-- No cycle of transitions that read nothing has a flag. -/
  ranked : ∃ rank : Nat → Nat, ∀ q, ∀ a ∈ g.arcs q, (a.inp = Basic.epsilon → rank a.target ≤ rank q) ∧
    (Flags.isDiacritic a.inp = true → rank a.target < rank q)

/-- A string where every symbol of the graph that occurs in it is an input symbol of the graph. -/
def InputsOnly (g : Graph) (s : Bytes) : Prop := ∀ x ∈ g.alphabet, asBytes x <:+: s → ∃ q, ∃ a ∈ g.arcs q, a.inp = x

/-- The symbols that were added. -/
def Added (table : List Sym) (T : List Bytes) : Prop :=
  ∃ extra, T = table.map asBytes ++ extra ∧ ∀ y ∈ extra, y.length ≤ 4 ∧ asText y ∉ table

theorem Usable.table_alphabet {g : Graph} {M : Machine} {table : List Sym} {n : Inputs} {pos : Nat → Nat} (h : Usable g M table n pos)
    (ha : AlphaOK g) {x : Sym} (hx : x ∈ table) : x ∈ g.alphabet := by
  rcases h.tables.only x hx with rfl | h1 | ⟨q, a, h1, h2 | h2⟩
  · exact ha.eps
  · exact h1
  · exact h2 ▸ (ha.arcs q a h1).1
  · exact h2 ▸ (ha.arcs q a h1).2

/-- Reading a string adds only symbols that the graph does not have. -/
theorem Usable.reads {g : Graph} {M : Machine} {table : List Sym} {n : Inputs} {pos : Nat → Nat} (h : Usable g M table n pos)
    (horig : M.orig = table.length) (hs : Suitable g) (hn : n.count ≤ table.length) {T T' : List Bytes} {s : Bytes} {ks : List Nat} (hT : Added table T)
    (hr : Reads n.count M.orig T s (some ks) T') (he : ¬ asBytes Basic.epsilon <:+: s) (hin : InputsOnly g s) :
    Added table T' ∧ ∀ x ∈ ks, Token table n.count T' x := by
  obtain ⟨extra, e1, e2⟩ := hT
  have hlen : T.length = table.length + extra.length := by rw [e1, List.length_append, List.length_map]
  have hzero := h.tables.epsilon
  have hpos : 0 < table.length := (List.getElem?_eq_some_iff.mp hzero).1
  have hget : ∀ {k : Nat} {x : Sym}, table[k]? = some x → T[k]? = some (asBytes x) := by
    intro k x hk
    have := (List.getElem?_eq_some_iff.mp hk).1
    rw [e1, List.getElem?_append_left (by rw [List.length_map]; exact this), List.getElem?_map, hk]
    rfl
  obtain ⟨⟨extra', f1, f2⟩, f3⟩ := reads_facts hr (by omega) (by omega) (by omega) (by
    intro x hx
    rw [hget hzero] at hx
    injection hx with hx
    rw [← hx]
    exact he)
  have hA : ∀ y ∈ extra ++ extra', y.length ≤ 4 ∧ asText y ∉ table := by
    intro y hy
    rcases List.mem_append.mp hy with hy | hy
    · exact e2 y hy
    · obtain ⟨g1, g2, g3⟩ := f2 y hy
      refine ⟨g2, fun hm => ?_⟩
      have hy : asBytes (asText y) = y := bytes_text y
      obtain ⟨q, a, ha, hax⟩ := hin _ (h.table_alphabet hs.alpha hm) (by rw [hy]; exact g1)
      have hd : Flags.isDiacritic a.inp = false := by
        apply short_plain
        rw [hax]
        unfold asText
        rw [List.length_map]
        omega
      have hlt := h.inputs q a ha hd
      apply g3 _ hlt
      rw [hget (idx_get (h.tables.arcs q a ha).1), hax, hy]
  have hT' : T' = table.map asBytes ++ (extra ++ extra') := by rw [f1, e1, List.append_assoc]
  refine ⟨⟨extra ++ extra', hT', hA⟩, ?_⟩
  intro x hx
  obtain ⟨g1, g2, g3⟩ := f3 ks rfl x hx
  refine ⟨g1, g2, ?_⟩
  rcases g3 with g3 | g3
  · exact .inl g3
  · right
    rw [horig] at g3
    have hm : ∃ y ∈ extra ++ extra', T'[x]? = some y := by
      rw [hT'] at g2 ⊢
      rw [List.getElem?_append_right (by rw [List.length_map]; exact g3)]
      rw [List.length_append, List.length_map] at g2
      rw [List.length_map]
      have : x - table.length < (extra ++ extra').length := by omega
      exact ⟨_, List.getElem_mem this, List.getElem?_eq_getElem this⟩
    obtain ⟨y, hy1, hy2⟩ := hm
    obtain ⟨k1, k2⟩ := hA y hy1
    unfold nameOf
    rw [hy2]
    refine ⟨g3, k2, ?_⟩
    show (asText y).length < 5
    unfold asText
    rw [List.length_map]
    omega

section
variable {g : Graph} {M : Machine} {table : List Sym} {n : Inputs} {pos : Nat → Nat}

theorem Usable.noCycle (h : Usable g M table n pos) (hs : Suitable g) : NoFlagCycle M.kinds (netOf table g) pos := by
  obtain ⟨rank, hr⟩ := hs.ranked
  classical
  refine ⟨fun p => if hp : ∃ q, q < g.states.length ∧ pos q = p then rank hp.choose else 0, ?_⟩
  have key : ∀ q, q < g.states.length → (if hp : ∃ r, r < g.states.length ∧ pos r = pos q then rank hp.choose else 0) = rank q := by
    intro q hq
    have hp : ∃ r, r < g.states.length ∧ pos r = pos q := ⟨q, hq, rfl⟩
    rw [dif_pos hp]
    obtain ⟨h1, h2⟩ := hp.choose_spec
    rw [h.injective _ h1 _ hq h2]
  intro q hq A hA
  obtain ⟨a, ha, rfl⟩ := List.mem_map.mp hA
  have ht : a.target < g.states.length := hs.wf.targets q a ha
  have hin := (h.tables.arcs q a ha).1
  dsimp only
  rw [key q hq, key a.target ht]
  refine ⟨?_, ?_⟩
  · intro h0
    apply (hr q a ha).1
    have h1 := idx_get hin
    rw [h0, h.tables.epsilon] at h1
    injection h1 with h1
    exact h1.symm
  · intro hf
    apply (hr q a ha).2
    obtain ⟨s, h1, h2⟩ := (h.flags _).mp hf
    rw [idx_get hin] at h1
    injection h1 with h1
    rw [h1]
    exact h2

theorem Usable.textOK (h : Usable g M table n pos) (hs : Suitable g) (horig : M.orig = table.length) (hn : n.count ≤ table.length) :
    TextOK M n := by
  refine ⟨?_, ?_, by omega, ?_, ?_⟩
  · rw [h.alphabet, List.length_map, horig]
  · have := (List.getElem?_eq_some_iff.mp h.tables.epsilon).1
    omega
  · intro x hx
    rw [h.alphabet] at hx
    obtain ⟨y, hy, rfl⟩ := List.mem_map.mp hx
    obtain ⟨h1, h2⟩ := hs.text y (h.table_alphabet hs.alpha hy)
    refine ⟨?_, h2⟩
    intro h0
    exact h1 (List.map_eq_nil_iff.mp h0)
  · intro x hx
    have hx0 : x ≠ 0 := by
      rintro rfl
      exact h.symbols.epsilon hx
    obtain ⟨s, h1, h2⟩ := (h.flags x).mp hx
    have hlt := (List.getElem?_eq_some_iff.mp h1).1
    refine ⟨?_, by omega⟩
    apply Nat.le_of_not_lt
    intro hc
    have := (h.read x (Nat.pos_of_ne_zero hx0) hc s h1).1
    rw [h2] at this
    cases this

/-- The analyses of the net are those of the graph. -/
theorem Setting.analyses {T : List Bytes} (h : Setting g M table n pos T) (hs : Suitable g) (hfd : flagTable table = some M.fd)
    (hsize : table.length ≤ 32767) {ks : List Nat} (hk : ∀ x ∈ ks, Token table n.count T x) (o : Int × List Bytes) :
    (∃ l r, l.length < 5000 ∧ Analysis (kindsOf M T) (netOf table g) (Flags.FdState.init M.fd.numFeatures) ks l r ∧
      o = (r.1, r.2.map (·.2))) ↔
    ∃ l p, l.length < 5000 ∧ IsAnalysis g (ks.map (nameOf T)) l p ∧ Flags.sIsValidString (flagsOf l) = true ∧
      o = (p.1, p.2.map fun x => outBytes x.2) := by
  have hvals : ∀ x ∈ table, Flags.NoEmptyValue x := fun x hx => hs.values x (h.usable.table_alphabet h.alpha hx)
  have hlen : ∀ {L : List (NArc × Option Nat)} {l : List Step}, List.Forall₂ (SameStep table T) L l → L.length = l.length :=
    fun h => h.length_eq
  have hflags : ∀ {L : List (NArc × Option Nat)} {l : List Step} {q : Nat}, Run g 0 l q → List.Forall₂ (SameStep table T) L l →
      (∀ x ∈ readBy L, Token table n.count T x) →
      (kindsOf M T).fd.passes (Flags.FdState.init M.fd.numFeatures) (L.map (·.1.input)) = some (Flags.sIsValidString (flagsOf l)) := by
    intro L l q h1 h2 h3
    obtain ⟨f1, f2⟩ := h.flags L l h1 h2 h3
    rw [← f1, valid_filter]
    exact passes_valid hfd h.usable.tables.epsilon hsize hvals f2
  constructor
  · rintro ⟨L, r, h1, ⟨q, w, a1, a2, a3, a4, a5, a6⟩, rfl⟩
    have hk' : ∀ x ∈ readBy L, Token table n.count T x := by rw [a3]; exact hk
    obtain ⟨l, b1, b2⟩ := h.run_graph L a1 hk'
    have hv := hflags b1 b2 hk'
    rw [a4] at hv
    injection hv with hv
    obtain ⟨v, c1, c2⟩ := h.strings hs.outputs L l b1 b2 hk'
    rw [a6] at c1
    injection c1 with c1
    refine ⟨l, (weightOf l + w, l.map shown), by rw [← hlen b2]; exact h1, ⟨q, w, b1, a2, ?_, rfl⟩, hv.symm, ?_⟩
    · rw [same_read b2, a3]
    · rw [a5, same_weight b2, c1, c2, List.map_map]
      rfl
  · rintro ⟨l, p, h1, ⟨q, w, a1, a2, a3, rfl⟩, hv, rfl⟩
    obtain ⟨L, b1, b2, b3⟩ := h.run_net l a1 a3 hk
    have hk' : ∀ x ∈ readBy L, Token table n.count T x := by rw [b2]; exact hk
    obtain ⟨v, c1, c2⟩ := h.strings hs.outputs L l a1 b3 hk'
    refine ⟨L, (weightBy L + w, v), by rw [hlen b3]; exact h1, ⟨q, w, b1, a2, b2, ?_, rfl, c1⟩, ?_⟩
    · rw [hflags a1 b3 hk', hv]
    · rw [same_weight b3]
      dsimp only
      rw [c2, List.map_map]
      rfl

/-- The tables of symbols stay well-formed. -/
theorem Usable.many (h : Usable g M table n pos) (hs : Suitable g) (horig : M.orig = table.length) (hn : n.count ≤ table.length) {fuel : Nat} :
    ∀ (ss : List Bytes) (k : Nat) (S S' : Session), SessionOK M n k S → Added table S.table →
    (∀ s ∈ ss, TextInput M n s ∧ InputsOnly g s ∧ s.length < fuel) → M.orig + k + ss.flatten.length ≤ noSymbol →
    lookupMany M fuel ss S = .ok S' → Added table S'.table
  | [], k, S, S', _, hA, _, _, he => by
    injection he with he
    rw [← he]
    exact hA
  | s :: ss, k, S, S', hS, hA, hss, hroom, he => by
    rw [List.flatten_cons, List.length_append] at hroom
    obtain ⟨t1, t2, t3⟩ := hss s (List.mem_cons_self ..)
    obtain ⟨rs, S1, ks, e1, e2, e3, _⟩ := text_spec h.represents h.symbols (h.noCycle hs) (h.textOK hs horig hn) hS t1 t3 (by omega)
    have hA1 := (h.reads horig hs hn hA e3 (by
      apply t1.2.2.1
      rw [h.alphabet, List.getElem?_map, h.tables.epsilon]
      rfl) t2).1
    rw [lookupMany, e1, Outcome.bind] at he
    exact h.many hs horig hn ss _ S1 S' e2 hA1 (fun x hx => hss x (List.mem_cons_of_mem _ hx)) (by omega) he

end

/-- **C61.**  A lookup in the converted transducer (also after other lookups) ends, reads nothing outside the tables, and returns just the
outputs of the analyses that the graph has for the symbols that the string is read as, by runs with fewer than 5000 transitions, and
with their weights.  `order`, `tooFull`, `enc` and `weightOf`: see `C38_partial`.  Missing: longer runs, what `Suitable` excludes, strings
with unknown symbols if identity or unknown is not read by the graph, and strings that have a symbol of the graph that is not an input
symbol. -/
theorem C61_partial (order : List Sym → List Sym) (ho : ∀ l, (order l).Perm l) {tooFull : Nat → Nat → Bool}
    (htoo : ∀ n, 0 < n → tooFull 0 n = false) {enc : Int → Nat} {weightOf : Nat → Int} {g : Graph}
    (hE : ∀ w, HasWeight g w → weightOf (enc w) = w ∧ enc w ≠ noIndex) (hg : Suitable g) {C : Converted}
    (hC : convert order tooFull enc g = .ok C) (hi : C.indices.length ≤ targetStart) (ht : C.transitions.length ≤ targetStart)
    (hsize : C.table.length ≤ 32767) {limit : Int} (hlimit : limit < 0) {before : List Bytes} {s : Bytes}
    (hs : ∀ x ∈ s :: before, TextInput (C.machine weightOf limit) (C.inputs g) x ∧ InputsOnly g x) {fuel : Nat}
    (hf : ∀ x ∈ s :: before, x.length < fuel) (hroom : C.table.length + before.flatten.length + s.length ≤ 65535)
    (tape : List Nat) (out : List (Nat × Nat)) :
    ∃ e S rs S' ks, Encoder.make (C.table.map asBytes) C.seen = .ok e ∧
      lookupMany (C.machine weightOf limit) fuel before
        ⟨C.table.map asBytes, e, tape, out, Flags.FdState.init C.fd.numFeatures⟩ = .ok S ∧
      lookupText (C.machine weightOf limit) fuel s S = .ok (rs, S') ∧
      Reads C.seen C.table.length S.table s (some ks) S'.table ∧
      ∀ o, o ∈ rs ↔ ∃ l p, l.length < 5000 ∧ IsAnalysis g (ks.map fun k => asText ((S'.table[k]?).getD [])) l p ∧
        Flags.sIsValidString (flagsOf l) = true ∧ o = (p.1, p.2.map fun x => if x.2 = Basic.epsilon then [] else asBytes x.2) := by
  have hdef : IsRead g defaultSym := by
    rintro (h | ⟨q, a, ha, h⟩)
    · exact absurd h hg.noDefault
    · exact absurd (h ▸ (hg.alpha.arcs q a ha).2) hg.noDefault
  obtain ⟨pos, hU⟩ := convert_usable order ho htoo (weightOf := weightOf) hE hg.wf hg.noInsertions hg.bytes hdef hC hi ht limit
  have horig : (C.machine weightOf limit).orig = C.table.length := rfl
  have hn : (C.inputs g).count ≤ C.table.length := hU.symbols.inputs
  have hT := hU.textOK hg horig hn
  obtain ⟨e, S, rs, S', ks, h1, h2, h3, h4, h5, h6⟩ := C39_strings_partial hU.represents hU.symbols (hU.noCycle hg) hT hlimit
    (fun x hx => (hs x hx).1) hf hroom tape out
  rw [hU.alphabet] at h1 h2
  obtain ⟨e', m1, m2⟩ := make_knows (table := (C.machine weightOf limit).alphabet.table) (n := (C.inputs g).count)
    (by rw [hT.size]; exact hT.inputs) fun x hx => ⟨(hT.symbols x hx).1, (hT.symbols x hx).2.1⟩
  have hee : e' = e := by
    rw [hU.alphabet, h1] at m1
    injection m1 with m1
    exact m1.symm
  subst hee
  have h0 : SessionOK (C.machine weightOf limit) (C.inputs g) 0
      ⟨C.table.map asBytes, e', tape, out, Flags.FdState.init (C.machine weightOf limit).fd.numFeatures⟩ :=
    ⟨⟨[], by rw [hU.alphabet, List.append_nil], m2, by simp, .inr rfl⟩,
      fun x hx => (hT.symbols x (by rw [hU.alphabet]; exact hx)).2.2, rfl⟩
  have hroom' : C.table.length + before.flatten.length + s.length ≤ noSymbol := hroom
  have hA := hU.many hg horig hn before 0 _ S h0 ⟨[], by simp, by simp⟩
    (fun x hx => ⟨(hs x (List.mem_cons_of_mem _ hx)).1, (hs x (List.mem_cons_of_mem _ hx)).2, hf x (List.mem_cons_of_mem _ hx)⟩)
    (by rw [horig]; omega) h2
  have heps : ¬ asBytes Basic.epsilon <:+: s := by
    apply (hs s (List.mem_cons_self ..)).1.2.2.1
    rw [hU.alphabet, List.getElem?_map, hU.tables.epsilon]
    rfl
  obtain ⟨hA', hk⟩ := hU.reads horig hg hn hA h5 heps (hs s (List.mem_cons_self ..)).2
  have hset : Setting g (C.machine weightOf limit) C.table (C.inputs g) pos S'.table := by
    obtain ⟨extra, e1, _⟩ := hA'
    refine ⟨hU, horig, hg.alpha, ?_, ?_, ?_, hn, extra, e1⟩
    · exact fun x hx => hg.bytes.1 x (hU.table_alphabet hg.alpha hx)
    · exact fun hd => hg.noDefault (hU.table_alphabet hg.alpha hd)
    · show C.table.length ≤ 65535
      omega
  refine ⟨e', S, rs, S', ks, h1, h2, h3, h5, ?_⟩
  intro o
  rw [h6 o]
  exact hset.analyses hg (convert_flags hC) hsize hk o

end Hfst.Ol
