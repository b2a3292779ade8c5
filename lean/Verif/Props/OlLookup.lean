import Verif.Spec.OlLookup
import Verif.Props.OlEncode
import Verif.Lemmas.Graph
import Mathlib.Tactic.SplitIfs
import Mathlib.Tactic.ByContra

/-!
# C39: optimized lookup finds the runs of the transducer
-/
namespace Hfst.Ol
open Hfst.Basic

/-! ## Tapes -/

theorem write_take {tape : List (Nat × Nat)} {pos : Nat} (h : pos ≤ tape.length) (p : Nat × Nat) :
    (writeTape tape pos p).take (pos + 1) = tape.take pos ++ [p] := by
  unfold writeTape
  apply List.ext_getElem?
  intro i
  rw [List.getElem?_take]
  by_cases h1 : i < pos + 1
  · rw [if_pos h1, List.getElem?_set]
    by_cases h2 : pos = i
    · subst h2
      rw [if_pos rfl, if_pos (by simp; omega), List.getElem?_append_right (by simp; omega)]
      simp [Nat.min_eq_left h]
    · rw [if_neg h2, List.getElem?_append_left (by omega), List.getElem?_append_left (by simp; omega),
        List.getElem?_take, if_pos (by omega)]
  · rw [if_neg h1, List.getElem?_eq_none]
    simp; omega

theorem write_take' {tape : List (Nat × Nat)} {pos : Nat} (h : pos ≤ tape.length) (p : Nat × Nat) :
    (writeTape tape pos p).take pos = tape.take pos := by
  have := congrArg (List.take pos) (write_take h p)
  rw [List.take_take, Nat.min_eq_left (by omega), List.take_append_of_le_length (by simp; omega), List.take_take,
    Nat.min_self] at this
  exact this

theorem write_get {tape : List (Nat × Nat)} {pos : Nat} (p : Nat × Nat) : (writeTape tape pos p)[pos]? = some p := by
  unfold writeTape
  rw [List.getElem?_set_self]
  simp; omega

theorem strings_append (al : Alphabet) : ∀ (p q : List (Nat × Nat)) (a b : List (Bytes × Bytes)), tapeStrings al p = some a →
    tapeStrings al q = some b → tapeStrings al (p ++ q) = some (a ++ b)
  | [], q, a, b, h1, h2 => by
    injection h1 with h1
    rw [← h1]; exact h2
  | x :: p, q, a, b, h1, h2 => by
    rw [tapeStrings] at h1
    rw [List.cons_append, tapeStrings]
    match hx : al.string x.1, hy : al.string x.2, hz : tapeStrings al p with
    | some u, some v, some l =>
      rw [hx, hy, hz] at h1
      injection h1 with h1
      rw [strings_append al p q l b hz h2, ← h1]
      rfl
    | none, _, _ => rw [hx] at h1; cases h1
    | some _, none, _ => rw [hx, hy] at h1; cases h1
    | some _, some _, none => rw [hx, hy, hz] at h1; cases h1

theorem strings_some {al : Alphabet} : ∀ {p : List (Nat × Nat)}, (∀ x ∈ p, x.1 < al.table.length ∧ x.2 < al.table.length) →
    ∃ l, tapeStrings al p = some l
  | [], _ => ⟨[], rfl⟩
  | x :: p, h => by
    obtain ⟨l, hl⟩ := strings_some (p := p) fun y hy => h y (List.mem_cons_of_mem _ hy)
    obtain ⟨h1, h2⟩ := h x (List.mem_cons_self ..)
    have hs : ∀ y, y < al.table.length → ∃ b, al.string y = some b := by
      intro y hy
      unfold Alphabet.string
      by_cases h0 : y = 0
      · exact ⟨_, if_pos h0⟩
      · rw [if_neg h0]
        exact ⟨_, List.getElem?_eq_getElem hy⟩
    obtain ⟨a, ha⟩ := hs _ h1
    obtain ⟨b, hb⟩ := hs _ h2
    exact ⟨(a, b) :: l, by rw [tapeStrings, ha, hb, hl]⟩

/-- A piece of output tape whose symbols are in the table. -/
def Written (al : Alphabet) (p : List (Nat × Nat)) : Prop := ∀ x ∈ p, x.1 < al.table.length ∧ x.2 < al.table.length

/-! ## Results -/

/-- What is found from state `q` on with at most `d - 1` transitions, when `p` is already on the output tape. -/
def Found (K : Kinds) (N : Net) (d q : Nat) (ks : List Nat) (st : Flags.FdState) (p : List (Nat × Nat)) (w : Int)
    (r : TwoLevel) : Prop :=
  ∃ l q' fw, NRun K N q l q' ∧ l.length < d ∧ N.final q' = some fw ∧ readBy l = ks ∧
    K.fd.passes st (l.map (·.1.input)) = some true ∧ r.1 = w + weightBy l + fw ∧
    tapeStrings K.al (p ++ l.map K.shown) = some r.2

/-- What is found behind a transition. -/
def Behind (K : Kinds) (N : Net) (d : Nat) (ks : List Nat) (st : Flags.FdState) (p : List (Nat × Nat)) (w : Int)
    (x : NArc × Option Nat) (r : TwoLevel) : Prop :=
  ∃ st', st.applySymbol K.fd x.1.input = some (true, st') ∧
    Found K N d x.1.target ks st' (p ++ [K.shown x]) (w + x.1.weight) r

theorem found_zero {K : Kinds} {N : Net} {q : Nat} {ks : List Nat} {st : Flags.FdState} {p : List (Nat × Nat)} {w : Int}
    {r : TwoLevel} : ¬ Found K N 0 q ks st p w r := by
  rintro ⟨l, q', fw, _, h, _⟩
  omega

theorem found_succ {K : Kinds} {N : Net} {d q : Nat} {ks : List Nat} {st : Flags.FdState} {p : List (Nat × Nat)} {w : Int}
    {r : TwoLevel} : Found K N (d + 1) q ks st p w r ↔
      (ks = [] ∧ ∃ fw, N.final q = some fw ∧ r.1 = w + fw ∧ tapeStrings K.al p = some r.2) ∨
      (∃ a ∈ N.arcs q, K.Free a ∧ Behind K N d ks st p w (a, none) r) ∨
      (∃ x ks', ks = x :: ks' ∧ ∃ a ∈ N.arcs q, Takes K N q a (some x) ∧ Behind K N d ks' st p w (a, some x) r) := by
  constructor
  · rintro ⟨l, q', fw, hr, hl, hf, hk, hp, hw, hs⟩
    cases hr with
    | nil =>
      left
      refine ⟨hk.symm, fw, hf, ?_, ?_⟩
      · rw [hw]; simp [weightBy]
      · rw [← hs]; simp
    | @cons _ _ a c l ha ht hr =>
      right
      rw [List.map_cons, Flags.FdTable.passes] at hp
      match hap : st.applySymbol K.fd a.input, hp with
      | some (true, st'), hp =>
        have hb : ∀ ks', readBy l = ks' → Behind K N d ks' st p w (a, c) r := by
          intro ks' hk'
          refine ⟨st', hap, l, q', fw, hr, ?_, hf, hk', hp, ?_, ?_⟩
          · simp only [List.length_cons] at hl; omega
          · rw [hw]; simp only [weightBy, List.map_cons, List.sum_cons]; omega
          · rw [List.append_assoc]; exact hs
        cases c with
        | none => exact .inl ⟨a, ha, ht, hb ks (by rw [← hk]; rfl)⟩
        | some x => exact .inr ⟨x, readBy l, hk.symm, a, ha, ht, hb _ rfl⟩
  · have hb : ∀ (a : NArc) (c : Option Nat) (ks' : List Nat), a ∈ N.arcs q → Takes K N q a c → Behind K N d ks' st p w (a, c) r →
        (match c with | none => ks' | some x => x :: ks') = ks → Found K N (d + 1) q ks st p w r := by
      rintro a c ks' ha ht ⟨st', hap, l, q', fw, hr, hl, hf, hk, hp, hw, hs⟩ he
      refine ⟨(a, c) :: l, q', fw, .cons ha ht hr, ?_, hf, ?_, ?_, ?_, ?_⟩
      · simp only [List.length_cons]; omega
      · rw [← he]
        cases c with
        | none => exact hk
        | some x =>
          show x :: readBy l = _
          rw [hk]
      · rw [List.map_cons, Flags.FdTable.passes, hap]
        exact hp
      · rw [hw]; simp only [weightBy, List.map_cons, List.sum_cons]; omega
      · rw [List.append_assoc] at hs
        exact hs
    rintro (⟨h1, fw, h2, h3, h4⟩ | ⟨a, ha, hf, h⟩ | ⟨x, ks', he, a, ha, ht, h⟩)
    · refine ⟨[], q, fw, .nil, by simp, h2, h1.symm, rfl, ?_, ?_⟩
      · rw [h3]; simp [weightBy]
      · rw [← h4]; simp
    · exact hb a none ks ha hf h rfl
    · exact hb a (some x) ks' ha ht h he.symm

/-- What a part of the search does: it adds results with the property `V`, all of them if there is no limit, and leaves everything else
as it was. -/
structure Adds (M : Machine) (op : Nat) (s s' : LState) (V : TwoLevel → Prop) : Prop where
  keep : ∀ r ∈ s.results, r ∈ s'.results
  sound : ∀ r ∈ s'.results, r ∈ s.results ∨ V r
  full : M.enough s' = false → ∀ r, V r → r ∈ s'.results
  len : s.results.length ≤ s'.results.length
  cap : 0 ≤ M.limit → (s'.results.length : Int) ≤ max M.limit s.results.length
  flags : s'.flags = s.flags
  weight : s'.weight = s.weight
  out : s'.out.take op = s.out.take op
  size : op ≤ s'.out.length
  seen : ∀ x ∈ s'.seen, x ∈ s.seen

theorem enough_mono {M : Machine} {s s' : LState} (h : s.results.length ≤ s'.results.length) (he : M.enough s' = false) :
    M.enough s = false := by
  unfold Machine.enough at he ⊢
  have he := of_decide_eq_false he
  apply decide_eq_false
  omega

theorem Adds.refl {M : Machine} {op : Nat} {s : LState} {V : TwoLevel → Prop} (hs : op ≤ s.out.length) (hV : ∀ r, ¬ V r) :
    Adds M op s s V :=
  ⟨fun _ h => h, fun _ h => .inl h, fun _ r h => absurd h (hV r), Nat.le_refl _, fun _ => by omega, rfl, rfl, rfl, hs, fun _ h => h⟩

theorem Adds.mono {M : Machine} {op : Nat} {s s' : LState} {V W : TwoLevel → Prop} (h : Adds M op s s' V) (hV : ∀ r, V r ↔ W r) :
    Adds M op s s' W :=
  { h with
    sound := fun r hr => (h.sound r hr).imp id (hV r).mp
    full := fun he r hr => h.full he r ((hV r).mpr hr) }

theorem Adds.trans {M : Machine} {op : Nat} {s s' s'' : LState} {V W : TwoLevel → Prop} (h : Adds M op s s' V)
    (h' : Adds M op s' s'' W) : Adds M op s s'' fun r => V r ∨ W r where
  keep r hr := h'.keep r (h.keep r hr)
  sound r hr := by
    rcases h'.sound r hr with hr | hr
    · exact (h.sound r hr).imp id .inl
    · exact .inr (.inr hr)
  full he r hr := by
    rcases hr with hr | hr
    · exact h'.keep r (h.full (enough_mono h'.len he) r hr)
    · exact h'.full he r hr
  len := Nat.le_trans h.len h'.len
  cap hl := by
    have := h.cap hl
    have := h'.cap hl
    omega
  flags := h'.flags.trans h.flags
  weight := h'.weight.trans h.weight
  out := h'.out.trans h.out
  size := h'.size
  seen x hx := h.seen x (h'.seen x hx)

/-- If there are enough results already, nothing need be added. -/
theorem Adds.full_skip {M : Machine} {op : Nat} {s s' : LState} {V : TwoLevel → Prop} (hs : op ≤ s.out.length)
    (he : M.enough s = true) (hr : s'.results = s.results) (hf : s'.flags = s.flags) (hw : s'.weight = s.weight)
    (ho : s'.out = s.out) (hseen : s'.seen = s.seen) : Adds M op s s' V where
  keep r h := by rw [hr]; exact h
  sound r h := by rw [hr] at h; exact .inl h
  full h := by
    have : M.enough s' = M.enough s := by unfold Machine.enough; rw [hr]
    rw [this, he] at h
    cases h
  len := by rw [hr]; exact Nat.le_refl _
  cap _ := by rw [hr]; omega
  flags := hf
  weight := hw
  out := by rw [ho]
  size := by rw [ho]; exact hs
  seen x hx := by rw [hseen] at hx; exact hx

theorem apply_some {st : Flags.FdState} {o : Flags.FdOperation} (h : o.feature < st.values.length) :
    ∃ b st', st.apply o = some (b, st') ∧ st'.errorFlag = st.errorFlag ∧ st'.values.length = st.values.length := by
  unfold Flags.FdState.apply
  rw [List.getElem?_eq_getElem h]
  dsimp only
  cases o.op <;> dsimp only <;> (try split_ifs) <;> exact ⟨_, _, rfl, rfl, by simp⟩

theorem assign_back {st st' : Flags.FdState} {n : Nat} (h : st.values.length = n) (he : st'.errorFlag = st.errorFlag) :
    st'.assign n st.values = st := by
  unfold Flags.FdState.assign
  rw [he]
  cases st
  simp at h ⊢
  intro h'
  exact absurd h h'

theorem table_get {α : Type} {l : List α} (hl : l.length ≤ targetStart) {i : Nat} {x : α} (h : l[i]? = some x) :
    tableGet l i = some x := by
  unfold tableGet
  have := (List.getElem?_eq_some_iff.mp h).1
  rw [if_pos (by omega)]
  exact h

/-- From a call to the state after the call. -/
theorem Adds.step {M : Machine} {op : Nat} {s s0 s1 s2 : LState} {V : TwoLevel → Prop} {x : Nat × Nat}
    (h : Adds M (op + 1) s0 s1 V) (hs : op ≤ s.out.length) (h0 : s0.results = s.results) (h0' : s0.out = writeTape s.out op x)
    (h2 : s2.results = s1.results) (hf : s2.flags = s.flags) (hw : s2.weight = s.weight) (ho : s2.out = s1.out)
    (hseen : ∀ x ∈ s2.seen, x ∈ s.seen) : Adds M op s s2 V where
  keep r hr := by rw [h2]; exact h.keep r (by rw [h0]; exact hr)
  sound r hr := by
    rw [h2] at hr
    have := h.sound r hr
    rw [h0] at this
    exact this
  full he r hr := by
    rw [h2]
    refine h.full ?_ r hr
    unfold Machine.enough at he ⊢
    rw [← h2]; exact he
  len := by rw [h2, ← h0]; exact h.len
  cap hl := by rw [h2, ← h0]; exact h.cap hl
  flags := hf
  weight := hw
  out := by
    have := congrArg (List.take op) h.out
    rw [List.take_take, List.take_take, Nat.min_eq_left (by omega), h0', write_take' hs] at this
    rw [ho]; exact this
  size := by rw [ho]; have := h.size; omega
  seen := hseen

/-! ## The search -/

/-- What holds when the search comes to a state. -/
structure Pre (M : Machine) (N : Net) (pos rank : Nat → Nat) (ks : List Nat) (q ip op : Nat) (p : List (Nat × Nat)) (s : LState) :
    Prop where
  state : q < N.size
  tape : ip ≤ ks.length
  out : s.out.take op = p
  length : p.length = op
  written : Written M.alphabet p
  flags : s.flags.values.length = M.fd.numFeatures
  seen : ∀ e ∈ s.seen, rank (pos q) ≤ rank e.1

theorem Pre.size {M : Machine} {N : Net} {pos rank : Nat → Nat} {ks : List Nat} {q ip op : Nat} {p : List (Nat × Nat)} {s : LState}
    (h : Pre M N pos rank ks q ip op p s) : op ≤ s.out.length := by
  have h1 := h.length
  rw [← h.out, List.length_take] at h1
  omega

/-- After a part of the search the same holds. -/
theorem Pre.after {M : Machine} {N : Net} {pos rank : Nat → Nat} {ks : List Nat} {q ip op : Nat} {p : List (Nat × Nat)}
    {s s' : LState} {V : TwoLevel → Prop} (h : Pre M N pos rank ks q ip op p s) (h' : Adds M op s s' V) :
    Pre M N pos rank ks q ip op p s' :=
  { h with
    out := h'.out.trans h.out
    flags := by rw [h'.flags]; exact h.flags
    seen := fun e he => h.seen e (h'.seen e he) }

/-- A search with depth `d` finds all runs with fewer than `d` transitions. -/
def Spec (M : Machine) (N : Net) (pos rank : Nat → Nat) (ks : List Nat) (d : Nat) (call : Call) : Prop :=
  ∀ q ip op p s, Pre M N pos rank ks q ip op p s → ∃ s', call ip op (pos q) s = .ok s' ∧
    Adds M op s s' (Found M.kinds N d q (ks.drop ip) s.flags p s.weight)

/-- The rank goes down. -/
def Ranked (K : Kinds) (N : Net) (pos rank : Nat → Nat) : Prop := ∀ q < N.size, ∀ a ∈ N.arcs q,
  (a.input = 0 → rank (pos a.target) ≤ rank (pos q)) ∧ (K.Flag a.input → rank (pos a.target) < rank (pos q))

theorem written_snoc {al : Alphabet} {p : List (Nat × Nat)} (h : Written al p) {x : Nat × Nat}
    (hx : x.1 < al.table.length ∧ x.2 < al.table.length) : Written al (p ++ [x]) := by
  intro y hy
  rcases List.mem_append.mp hy with hy | hy
  · exact h y hy
  · rw [List.mem_singleton.mp hy]; exact hx

theorem entry_weight {M : Machine} {pos : Nat → Nat} {t : Trans} {a : NArc} (h : IsEntry M pos t a) : M.transWeight t = a.weight := h.2.2.2

theorem marks_index {M : Machine} {e : Index} {f : Option Int} (h : MarksIndex M e f) : M.indexFinal e = f := by
  unfold Machine.indexFinal Index.final Machine.indexWeight
  cases f with
  | none => rw [if_neg (by rw [decide_eq_true_iff]; exact h)]
  | some w => rw [if_pos (by simpa using ⟨h.1, h.2.1⟩), h.2.2]

theorem marks_trans {M : Machine} {t : Trans} {f : Option Int} (h : MarksTrans M t f) : M.transFinal t = f := by
  unfold Machine.transFinal Trans.final Machine.transWeight
  cases f with
  | none => rw [if_neg (by rw [decide_eq_true_iff]; exact h)]
  | some w => rw [if_pos (by simpa using ⟨h.1, h.2.1, h.2.2.1⟩), h.2.2.2]

theorem block_head {M : Machine} {pos : Nat → Nat} {i : Nat} {a : NArc} {l : List NArc} {stop : Trans → Prop}
    (h : Block M pos i (a :: l) stop) : (∃ t, M.transitions[i]? = some t ∧ IsEntry M pos t a) ∧ Block M pos (i + 1) l stop := by
  refine ⟨h.1 0 a rfl, ?_, ?_⟩
  · intro k b hb
    obtain ⟨t, h1, h2⟩ := h.1 (k + 1) b hb
    exact ⟨t, by rw [Nat.add_assoc, Nat.add_comm 1]; exact h1, h2⟩
  · obtain ⟨t, h1, h2⟩ := h.2
    exact ⟨t, by rw [Nat.add_assoc, Nat.add_comm 1]; exact h1, h2⟩

theorem eps_spec {M : Machine} {n : Inputs} {N : Net} {pos rank : Nat → Nat} {ks : List Nat} {d : Nat} {call : Call}
    (hR : Represents M n N pos) (hS : SymbolsOK M.kinds n N) (hr : Ranked M.kinds N pos rank)
    (hc : Spec M N pos rank ks d call) {q ip op : Nat} {p : List (Nat × Nat)} :
    ∀ (l : List NArc) (fuel i : Nat) (s : LState), Pre M N pos rank ks q ip op p s → (∀ a ∈ l, a ∈ N.arcs q ∧ M.kinds.Free a) →
      Block M pos i l (fun t => t.input ≠ 0 ∧ ¬ M.kinds.Flag t.input) → l.length < fuel →
      ∃ s', tryEpsilonTransitions M call ip op fuel i s = .ok s' ∧
        Adds M op s s' (fun r => ∃ a ∈ l, Behind M.kinds N d (ks.drop ip) s.flags p s.weight (a, none) r) ∧ (l = [] → s' = s)
  | _, 0, _, _, _, _, _, hf => by omega
  | [], fuel + 1, i, s, hp, _, hb, _ => by
    obtain ⟨t, h1, h2, h3⟩ := hb.2
    refine ⟨s, ?_, Adds.refl hp.size (by rintro r ⟨a, ha, _⟩; cases ha), fun _ => rfl⟩
    rw [List.length_nil, Nat.add_zero] at h1
    rw [tryEpsilonTransitions, table_get hR.transSize h1]
    dsimp only
    rw [if_neg h2]
    cases hg : M.fd.getOperation t.input with
    | none => rfl
    | some o => exact absurd ⟨o, hg⟩ h3
  | a :: l, fuel + 1, i, s, hp, ha, hb, hf => by
    obtain ⟨⟨t, h1, hentry⟩, hb'⟩ := block_head hb
    have e4 := entry_weight hentry
    obtain ⟨e1, e2, e3, -⟩ := hentry
    obtain ⟨ha1, ha2⟩ := ha a (List.mem_cons_self ..)
    have hl : l.length < fuel := by simp only [List.length_cons] at hf; omega
    have ha' : ∀ b ∈ l, b ∈ N.arcs q ∧ M.kinds.Free b := fun b hb => ha b (List.mem_cons_of_mem _ hb)
    have hk := hS.known q hp.state a ha1
    have htarget := hR.closed q hp.state a ha1
    have hsplit : ∀ (r : TwoLevel), (∃ b ∈ a :: l, Behind M.kinds N d (ks.drop ip) s.flags p s.weight (b, none) r) ↔
        Behind M.kinds N d (ks.drop ip) s.flags p s.weight (a, none) r ∨
          ∃ b ∈ l, Behind M.kinds N d (ks.drop ip) s.flags p s.weight (b, none) r := by
      intro r
      constructor
      · rintro ⟨b, hb, h⟩
        rcases List.mem_cons.mp hb with rfl | hb
        · exact .inl h
        · exact .inr ⟨b, hb, h⟩
      · rintro (h | ⟨b, hb, h⟩)
        · exact ⟨a, List.mem_cons_self .., h⟩
        · exact ⟨b, List.mem_cons_of_mem _ hb, h⟩
    rw [tryEpsilonTransitions, table_get hR.transSize h1]
    dsimp only
    by_cases h0 : t.input = 0
    · rw [if_pos h0, e3, e4, e1, e2]
      have hap : ∀ st : Flags.FdState, st.values.length = M.fd.numFeatures → ¬ M.kinds.Flag a.input →
          st.applySymbol M.fd a.input = some (true, st) := by
        intro st _ hnf
        unfold Flags.FdState.applySymbol
        cases hg : M.fd.getOperation a.input with
        | none => rfl
        | some o => exact absurd ⟨o, hg⟩ hnf
      have hflag : ¬ M.kinds.Flag a.input := by
        rw [← e1, h0]; exact hS.epsilon
      · obtain ⟨s1, c1, c2⟩ := hc a.target ip (op + 1) (p ++ [(a.input, a.output)])
          { s with out := writeTape s.out op (a.input, a.output), weight := s.weight + a.weight }
          { state := htarget
            tape := hp.tape
            out := by dsimp only; rw [write_take hp.size, hp.out]
            length := by rw [List.length_append, hp.length]; rfl
            written := written_snoc hp.written hk
            flags := hp.flags
            seen := fun e he => Nat.le_trans ((hr q hp.state a ha1).1 (by rw [← e1]; exact h0)) (hp.seen e he) }
        rw [c1, Outcome.bind]
        have hadd : Adds M op s { s1 with found := true, weight := s.weight }
            (Behind M.kinds N d (ks.drop ip) s.flags p s.weight (a, none)) := by
          refine Adds.mono (c2.step hp.size rfl rfl rfl c2.flags rfl rfl c2.seen) ?_
          intro r
          constructor
          · intro h
            exact ⟨s.flags, hap _ hp.flags hflag, h⟩
          · rintro ⟨st', h, h'⟩
            have : s.flags.applySymbol M.fd a.input = some (true, st') := h
            rw [hap _ hp.flags hflag] at this
            injection this with this
            injection this with _ this
            subst this
            exact h'
        obtain ⟨s2, d1, d2, _⟩ := eps_spec hR hS hr hc l fuel (i + 1) _ (hp.after hadd) ha' hb' hl
        refine ⟨s2, d1, ?_, by simp⟩
        have := hadd.trans d2
        rw [hadd.flags, hadd.weight] at this
        exact this.mono fun r => (hsplit r).symm
    · rw [if_neg h0]
      obtain ⟨o, ho⟩ : M.kinds.Flag a.input := by
        rcases ha2 with h | h
        · exact absurd (e1.trans h) h0
        · exact h
      have hog : M.fd.getOperation t.input = some o := by rw [e1]; exact ho
      rw [hog]
      dsimp only
      have hfeat : o.feature < s.flags.values.length := by rw [hp.flags]; exact hS.features _ _ ho
      obtain ⟨b, st', ap, er, len⟩ := apply_some hfeat
      have hap : s.flags.applySymbol M.fd a.input = some (b, st') := by
        unfold Flags.FdState.applySymbol
        have : M.fd.getOperation a.input = some o := ho
        rw [this]
        exact ap
      rw [ap]
      cases b with
      | false =>
        dsimp only
        rw [assign_back hp.flags er]
        obtain ⟨s2, d1, d2, _⟩ := eps_spec hR hS hr hc l fuel (i + 1) s hp ha' hb' hl
        refine ⟨s2, d1, d2.mono ?_, by simp⟩
        intro r
        rw [hsplit]
        constructor
        · exact .inr
        · rintro (⟨st'', h, _⟩ | h)
          · have : s.flags.applySymbol M.fd a.input = some (true, st'') := h
            rw [hap] at this
            cases this
          · exact h
      | true =>
        dsimp only
        have hnot : ¬ (t.target, s.flags.values) ∈ s.seen := by
          intro hmem
          have h1 := hp.seen _ hmem
          have h2 := (hr q hp.state a ha1).2 ⟨o, ho⟩
          dsimp only at h1
          rw [e3] at h1
          omega
        rw [if_neg hnot, e3, e4, e1, e2]
        obtain ⟨s1, c1, c2⟩ := hc a.target ip (op + 1) (p ++ [(a.input, a.output)])
          { s with flags := st', seen := setInsert s.seen (pos a.target, s.flags.values),
                   out := writeTape s.out op (a.input, a.output), weight := s.weight + a.weight }
          { state := htarget
            tape := hp.tape
            out := by dsimp only; rw [write_take hp.size, hp.out]
            length := by rw [List.length_append, hp.length]; rfl
            written := written_snoc hp.written hk
            flags := len.trans hp.flags
            seen := by
              intro e he
              rcases mem_setInsert.mp he with rfl | he
              · exact Nat.le_refl _
              · exact Nat.le_trans (Nat.le_of_lt ((hr q hp.state a ha1).2 ⟨o, ho⟩)) (hp.seen e he) }
        rw [c1, Outcome.bind]
        have hflags : s1.flags.assign M.fd.numFeatures s.flags.values = s.flags := by
          refine assign_back hp.flags ?_
          rw [c2.flags]; exact er
        rw [hflags]
        have hadd : Adds M op s { s1 with
              found := true, weight := s.weight, seen := setErase s1.seen (pos a.target, s.flags.values), flags := s.flags }
            (Behind M.kinds N d (ks.drop ip) s.flags p s.weight (a, none)) := by
          refine Adds.mono (c2.step hp.size rfl rfl rfl rfl rfl rfl ?_) ?_
          · intro x hx
            obtain ⟨h1, h2⟩ := mem_setErase.mp hx
            rcases mem_setInsert.mp (c2.seen x h1) with h | h
            · exact absurd h h2
            · exact h
          · intro r
            constructor
            · intro h
              exact ⟨st', hap, h⟩
            · rintro ⟨st'', h, h'⟩
              have : s.flags.applySymbol M.fd a.input = some (true, st'') := h
              rw [hap] at this
              injection this with this
              injection this with _ this
              subst this
              exact h'
        obtain ⟨s2, d1, d2, _⟩ := eps_spec hR hS hr hc l fuel (i + 1) _ (hp.after hadd) ha' hb' hl
        refine ⟨s2, d1, ?_, by simp⟩
        have := hadd.trans d2
        rw [hadd.flags, hadd.weight] at this
        exact this.mono fun r => (hsplit r).symm

theorem apply_plain {K : Kinds} {x : Nat} (h : ¬ K.Flag x) (st : Flags.FdState) : st.applySymbol K.fd x = some (true, st) := by
  unfold Flags.FdState.applySymbol
  cases hg : K.fd.getOperation x with
  | none => rfl
  | some o => exact absurd ⟨o, hg⟩ h

theorem behind_plain {K : Kinds} {N : Net} {d : Nat} {ks : List Nat} {st : Flags.FdState} {p : List (Nat × Nat)} {w : Int}
    {x : NArc × Option Nat} {r : TwoLevel} (h : ¬ K.Flag x.1.input) :
    Behind K N d ks st p w x r ↔ Found K N d x.1.target ks st (p ++ [K.shown x]) (w + x.1.weight) r := by
  constructor
  · rintro ⟨st', h1, h2⟩
    rw [apply_plain h] at h1
    injection h1 with h1
    injection h1 with _ h1
    subst h1
    exact h2
  · exact fun h' => ⟨st, apply_plain h st, h'⟩

theorem find_loop {M : Machine} {n : Inputs} {N : Net} {pos rank : Nat → Nat} {ks : List Nat} {d : Nat} {call : Call}
    (hR : Represents M n N pos) (hS : SymbolsOK M.kinds n N) (hc : Spec M N pos rank ks d call) {q ip op y z : Nat}
    {p : List (Nat × Nat)} (hy : ¬ M.kinds.Flag y) (hy' : y ≠ noSymbol) (hz : M.tape[ip]? = some z) (hz' : ip < ks.length)
    (hz2 : z < M.alphabet.table.length) :
    ∀ (l : List NArc) (fuel i : Nat) (s : LState), Pre M N pos rank ks q ip op p s → (∀ a ∈ l, a ∈ N.arcs q ∧ a.input = y) →
      Block M pos i l (fun t => t.input ≠ y) → l.length < fuel →
      ∃ s', findTransitions M call y (ip + 1) op fuel i s = .ok s' ∧
        Adds M op s s' (fun r => ∃ a ∈ l, Behind M.kinds N d (ks.drop (ip + 1)) s.flags p s.weight (a, some z) r) ∧
        (l = [] → s' = s) ∧ (l ≠ [] → s'.found = true)
  | _, 0, _, _, _, _, _, hf => by omega
  | [], fuel + 1, i, s, hp, _, hb, _ => by
    obtain ⟨t, h1, h2⟩ := hb.2
    refine ⟨s, ?_, Adds.refl hp.size (by rintro r ⟨a, ha, _⟩; cases ha), fun _ => rfl, fun h => absurd rfl h⟩
    rw [List.length_nil, Nat.add_zero] at h1
    rw [findTransitions, table_get hR.transSize h1]
    dsimp only
    rw [if_neg fun h => h2 h.2]
  | a :: l, fuel + 1, i, s, hp, ha, hb, hf => by
    obtain ⟨⟨t, h1, hentry⟩, hb'⟩ := block_head hb
    have e4 := entry_weight hentry
    obtain ⟨e1, e2, e3, -⟩ := hentry
    obtain ⟨ha1, ha2⟩ := ha a (List.mem_cons_self ..)
    have hl : l.length < fuel := by simp only [List.length_cons] at hf; omega
    have ha' : ∀ b ∈ l, b ∈ N.arcs q ∧ b.input = y := fun b hb => ha b (List.mem_cons_of_mem _ hb)
    have hk := hS.known q hp.state a ha1
    have htarget := hR.closed q hp.state a ha1
    have hsplit : ∀ (r : TwoLevel), (∃ b ∈ a :: l, Behind M.kinds N d (ks.drop (ip + 1)) s.flags p s.weight (b, some z) r) ↔
        Behind M.kinds N d (ks.drop (ip + 1)) s.flags p s.weight (a, some z) r ∨
          ∃ b ∈ l, Behind M.kinds N d (ks.drop (ip + 1)) s.flags p s.weight (b, some z) r := by
      intro r
      constructor
      · rintro ⟨b, hb, h⟩
        rcases List.mem_cons.mp hb with rfl | hb
        · exact .inl h
        · exact .inr ⟨b, hb, h⟩
      · rintro (h | ⟨b, hb, h⟩)
        · exact ⟨a, List.mem_cons_self .., h⟩
        · exact ⟨b, List.mem_cons_of_mem _ hb, h⟩
    rw [findTransitions, table_get hR.transSize h1]
    dsimp only
    rw [if_pos ⟨by rw [e1, ha2]; exact hy', by rw [e1, ha2]⟩, Nat.add_sub_cancel, hz, e2, e3, e4]
    dsimp only
    have hshown : M.kinds.shown (a, some z) = (y, if M.alphabet.isMeta a.output then z else a.output) := by
      show (a.input, _) = _
      rw [ha2]; rfl
    obtain ⟨s1, c1, c2⟩ := hc a.target (ip + 1) (op + 1) (p ++ [(y, if M.alphabet.isMeta a.output then z else a.output)])
      { s with seen := [], weight := s.weight + a.weight,
               out := writeTape s.out op (y, if M.alphabet.isMeta a.output then z else a.output) }
      { state := htarget
        tape := hz'
        out := by dsimp only; rw [write_take hp.size, hp.out]
        length := by rw [List.length_append, hp.length]; rfl
        written := by
          refine written_snoc hp.written ⟨?_, ?_⟩
          · dsimp only
            rw [← ha2]; exact hk.1
          · dsimp only
            split
            · exact hz2
            · exact hk.2
        flags := hp.flags
        seen := by intro e he; cases he }
    rw [c1, Outcome.bind]
    have hadd : Adds M op s { s1 with found := true, weight := s.weight }
        (Behind M.kinds N d (ks.drop (ip + 1)) s.flags p s.weight (a, some z)) := by
      refine Adds.mono (c2.step hp.size rfl rfl rfl c2.flags rfl rfl ?_) ?_
      · intro x hx
        exact absurd (c2.seen x hx) List.not_mem_nil
      · intro r
        rw [behind_plain (x := (a, some z)) (by rw [ha2]; exact hy), hshown]
    obtain ⟨s2, d1, d2, d3, d4⟩ := find_loop hR hS hc hy hy' hz hz' hz2 l fuel (i + 1) _ (hp.after hadd) ha' hb' hl
    refine ⟨s2, d1, ?_, by simp, ?_⟩
    · have := hadd.trans d2
      rw [hadd.flags, hadd.weight] at this
      exact this.mono fun r => (hsplit r).symm
    · intro _
      by_cases hl : l = []
      · rw [d3 hl]
      · exact d4 hl

/-- What `find_transitions` and `find_index` do at a state. -/
def FindSpec (M : Machine) (n : Inputs) (N : Net) (pos rank : Nat → Nat) (ks : List Nat) (d : Nat) (q ip op z : Nat)
    (p : List (Nat × Nat)) (find : Nat → LState → Outcome LState) : Prop :=
  ∀ y, IsInput M.kinds n y → ∀ s, Pre M N pos rank ks q ip op p s → ∃ s', find y s = .ok s' ∧
    Adds M op s s' (fun r => ∃ a ∈ N.arcs q, a.input = y ∧
      Behind M.kinds N d (ks.drop (ip + 1)) s.flags p s.weight (a, some z) r) ∧
    ((∃ a ∈ N.arcs q, a.input = y) → s'.found = true) ∧ ((∀ a ∈ N.arcs q, a.input ≠ y) → s' = s)

theorem find_index_spec {M : Machine} {n : Inputs} {N : Net} {pos rank : Nat → Nat} {ks : List Nat} {d : Nat} {call : Call}
    (hR : Represents M n N pos) (hS : SymbolsOK M.kinds n N) (hc : Spec M N pos rank ks d call) {q ip op z : Nat}
    {p : List (Nat × Nat)} (hI : InIndex M n N pos q) (hz : M.tape[ip]? = some z) (hz' : ip < ks.length)
    (hz2 : z < M.alphabet.table.length) :
    FindSpec M n N pos rank ks d q ip op z p fun y => findIndex M call y (ip + 1) op (pos q + 1) := by
  intro y hy s hp
  obtain ⟨e, h1, h2⟩ := hI.symbol y hy
  unfold findIndex
  dsimp only
  rw [table_get hR.indexSize h1]
  dsimp only
  rcases h2 with ⟨h2, h3⟩ | ⟨h2, _, l, h4, h5, h6⟩
  · rw [if_neg h2]
    refine ⟨s, rfl, Adds.refl hp.size ?_, ?_, fun _ => rfl⟩
    · rintro r ⟨a, ha, hy, _⟩
      exact h3 a ha hy
    · rintro ⟨a, ha, hy⟩
      exact absurd hy (h3 a ha)
  · rw [if_pos h2]
    have hlen : l.length < M.transitions.length + 1 := by
      obtain ⟨t, ht, _⟩ := h6.2
      have := (List.getElem?_eq_some_iff.mp ht).1
      omega
    obtain ⟨s', c1, c2, _, _⟩ := find_loop hR hS hc (y := y) hy.2.2.1 hy.2.1 hz hz' hz2 l (M.transitions.length + 1)
      (e.target - targetStart) s hp (fun a ha => (h5 a).mp ha) h6 hlen
    rw [c1, Outcome.bind]
    refine ⟨_, rfl, ?_, fun _ => rfl, ?_⟩
    · have : Adds M op s { s' with found := true }
          (fun r => ∃ a ∈ l, Behind M.kinds N d (ks.drop (ip + 1)) s.flags p s.weight (a, some z) r) :=
        ⟨c2.keep, c2.sound, c2.full, c2.len, c2.cap, c2.flags, c2.weight, c2.out, c2.size, c2.seen⟩
      refine this.mono ?_
      intro r
      constructor
      · rintro ⟨a, ha, h⟩
        exact ⟨a, ((h5 a).mp ha).1, ((h5 a).mp ha).2, h⟩
      · rintro ⟨a, ha, hy, h⟩
        exact ⟨a, (h5 a).mpr ⟨ha, hy⟩, h⟩
    · intro h
      obtain ⟨a, l', rfl⟩ := List.exists_cons_of_ne_nil h4
      have := (h5 a).mp (List.mem_cons_self ..)
      exact absurd this.2 (h a this.1)

theorem find_transitions_spec {M : Machine} {n : Inputs} {N : Net} {pos rank : Nat → Nat} {ks : List Nat} {d : Nat} {call : Call}
    (hR : Represents M n N pos) (hS : SymbolsOK M.kinds n N) (hc : Spec M N pos rank ks d call) {q ip op z : Nat}
    {p : List (Nat × Nat)} (hT : InTransitions M n N pos q) (hz : M.tape[ip]? = some z) (hz' : ip < ks.length)
    (hz2 : z < M.alphabet.table.length) :
    FindSpec M n N pos rank ks d q ip op z p fun y =>
      findTransitions M call y (ip + 1) op (M.transitions.length + 1) (pos q - targetStart + 1) := by
  intro y hy s hp
  obtain ⟨l, h1, h2⟩ := hT.block
  have hlen : l.length < M.transitions.length + 1 := by
    obtain ⟨t, ht, _⟩ := h2.2
    have := (List.getElem?_eq_some_iff.mp ht).1
    omega
  by_cases hall : ∀ a ∈ l, a.input = y
  · obtain ⟨s', c1, c2, c3, c4⟩ := find_loop hR hS hc (y := y) hy.2.2.1 hy.2.1 hz hz' hz2 l (M.transitions.length + 1)
      (pos q - targetStart + 1) s hp (fun a ha => ⟨(h1 a).mp ha, hall a ha⟩)
      ⟨h2.1, by obtain ⟨t, ht, ht'⟩ := h2.2; exact ⟨t, ht, fun h => hy.2.1 (h.symm.trans ht')⟩⟩ hlen
    refine ⟨s', c1, c2.mono ?_, ?_, ?_⟩
    · intro r
      constructor
      · rintro ⟨a, ha, h⟩
        exact ⟨a, (h1 a).mp ha, hall a ha, h⟩
      · rintro ⟨a, ha, _, h⟩
        exact ⟨a, (h1 a).mpr ha, h⟩
    · rintro ⟨a, ha, _⟩
      exact c4 (List.ne_nil_of_mem ((h1 a).mpr ha))
    · intro h
      refine c3 ?_
      cases l with
      | nil => rfl
      | cons a l' => exact absurd (hall a (List.mem_cons_self ..)) (h a ((h1 a).mp (List.mem_cons_self ..)))
  · have hno : ∀ a ∈ N.arcs q, a.input ≠ y := by
      intro a ha hay
      rcases hT.kind with h | ⟨x, hx, h⟩
      · rcases h a ha with h | h
        · exact hy.1 (hay.symm.trans h)
        · rw [hay] at h
          exact hy.2.2.1 h
      · exact hall fun b hb => by rw [h b ((h1 b).mp hb), ← h a ha, hay]
    refine ⟨s, ?_, Adds.refl hp.size ?_, ?_, fun _ => rfl⟩
    · match l, h1, h2, hall with
      | [], h1, h2, hall => exact absurd (by simp) hall
      | a :: l', h1, h2, _ =>
        obtain ⟨⟨t, ht, e1, _⟩, _⟩ := block_head h2
        dsimp only
        rw [findTransitions, table_get hR.transSize ht]
        dsimp only
        rw [if_neg]
        rintro ⟨_, h⟩
        exact hno a ((h1 a).mp (List.mem_cons_self ..)) (e1.symm.trans h)
    · rintro r ⟨a, ha, hy, _⟩
      exact hno a ha hy
    · rintro ⟨a, ha, hy⟩
      exact absurd hy (hno a ha)

theorem consume_spec {M : Machine} {n : Inputs} {N : Net} {pos rank : Nat → Nat} {ks : List Nat} {d : Nat}
    (hS : SymbolsOK M.kinds n N) (hK : TapeOK M.kinds n ks) {q ip op z : Nat} {p : List (Nat × Nat)}
    {find : Nat → LState → Outcome LState} (hz : z ∈ ks) (hfind : FindSpec M n N pos rank ks d q ip op z p find) {s : LState}
    (hp : Pre M N pos rank ks q ip op p s) (h1 : s.found = true → ∃ b ∈ N.arcs q, M.kinds.Free b)
    (h2 : s.found = false → (∀ b ∈ N.arcs q, ¬ M.kinds.Free b) ∨ ∀ b ∈ N.arcs q, M.kinds.Free b) :
    ∃ s', consume M find z s = .ok s' ∧ Adds M op s s' (fun r => ∃ a ∈ N.arcs q, Takes M.kinds N q a (some z) ∧
      Behind M.kinds N d (ks.drop (ip + 1)) s.flags p s.weight (a, some z) r) := by
  obtain ⟨k1, k2, k3, k4⟩ := hK z hz
  have hnone : z ≠ noSymbol := by have := hS.small; omega
  have hspecial : ∀ y, y ≠ noSymbol → (y = M.alphabet.identity ∨ y = M.alphabet.unknown ∨ y = M.alphabet.default) →
      (y = M.alphabet.default ∨ n.unknowns) → IsInput M.kinds n y := by
    intro y hy h hu
    obtain ⟨h3, h4⟩ := hS.special y hy h
    refine ⟨h3, hy, h4, ?_⟩
    rcases hu with hu | hu
    · exact .inr (.inl hu)
    · rcases h with h | h | h
      · exact .inr (.inr ⟨hu, .inl h⟩)
      · exact .inr (.inr ⟨hu, .inr h⟩)
      · exact .inr (.inl h)
  have key : ∃ s1, (if z < M.orig then find z s
      else (if M.alphabet.identity ≠ noSymbol then find M.alphabet.identity s else .ok s).bind fun s =>
        if M.alphabet.unknown ≠ noSymbol then find M.alphabet.unknown s else .ok s) = .ok s1 ∧
      Adds M op s s1 (fun r => ∃ a ∈ N.arcs q, M.kinds.Direct z a ∧
        Behind M.kinds N d (ks.drop (ip + 1)) s.flags p s.weight (a, some z) r) ∧
      ((∃ a ∈ N.arcs q, M.kinds.Direct z a) → s1.found = true) ∧ ((∀ a ∈ N.arcs q, ¬ M.kinds.Direct z a) → s1 = s) := by
    by_cases hlt : z < M.orig
    · have hd : ∀ a, M.kinds.Direct z a ↔ a.input = z := by
        intro a
        unfold Kinds.Direct
        rw [if_pos (show z < M.kinds.orig from hlt)]
      have hin : IsInput M.kinds n z := by
        refine ⟨k1, hnone, k2, .inl ?_⟩
        rcases k3 with h | h
        · exact h
        · have h : M.orig ≤ z := h.2
          omega
      obtain ⟨s1, e1, e2, e3, e4⟩ := hfind z hin s hp
      rw [if_pos hlt]
      simp only [hd]
      exact ⟨s1, e1, e2, e3, e4⟩
    · rw [if_neg hlt]
      have hunk : n.unknowns := by
        rcases k3 with h | h
        · exact absurd (Nat.lt_of_lt_of_le h hS.inputs) hlt
        · exact h.1
      have hd : ∀ a, M.kinds.Direct z a ↔ a.input ≠ noSymbol ∧ (a.input = M.alphabet.identity ∨ a.input = M.alphabet.unknown) := by
        intro a
        unfold Kinds.Direct
        rw [if_neg (show ¬ z < M.kinds.orig from hlt)]
        rfl
      have one : ∀ y, (y = M.alphabet.identity ∨ y = M.alphabet.unknown ∨ y = M.alphabet.default) → ∀ s,
          Pre M N pos rank ks q ip op p s → ∃ s1, (if y ≠ noSymbol then find y s else .ok s) = .ok s1 ∧
          Adds M op s s1 (fun r => ∃ a ∈ N.arcs q, (y ≠ noSymbol ∧ a.input = y) ∧
            Behind M.kinds N d (ks.drop (ip + 1)) s.flags p s.weight (a, some z) r) ∧
          ((∃ a ∈ N.arcs q, y ≠ noSymbol ∧ a.input = y) → s1.found = true) ∧
          ((∀ a ∈ N.arcs q, ¬ (y ≠ noSymbol ∧ a.input = y)) → s1 = s) ∧ (s.found = true → s1.found = true) := by
        intro y hy s hp
        by_cases h : y ≠ noSymbol
        · rw [if_pos h]
          obtain ⟨s1, e1, e2, e3, e4⟩ := hfind y (hspecial y h hy (.inr hunk)) s hp
          refine ⟨s1, e1, e2.mono ?_, ?_, ?_, ?_⟩
          · intro r
            constructor
            · rintro ⟨a, ha, h', h''⟩
              exact ⟨a, ha, ⟨h, h'⟩, h''⟩
            · rintro ⟨a, ha, h', h''⟩
              exact ⟨a, ha, h'.2, h''⟩
          · rintro ⟨a, ha, _, h'⟩
            exact e3 ⟨a, ha, h'⟩
          · intro h'
            exact e4 fun a ha h'' => h' a ha ⟨h, h''⟩
          · intro hf
            by_cases hex : ∃ a ∈ N.arcs q, a.input = y
            · exact e3 hex
            · rw [e4 fun a ha h => hex ⟨a, ha, h⟩]
              exact hf
        · rw [if_neg h]
          refine ⟨s, rfl, Adds.refl hp.size ?_, ?_, fun _ => rfl, fun h => h⟩
          · rintro r ⟨a, _, h', _⟩
            exact h h'.1
          · rintro ⟨a, _, h', _⟩
            exact absurd h' h
      obtain ⟨s1, e1, e2, e3, e4, _⟩ := one M.alphabet.identity (.inl rfl) s hp
      obtain ⟨s2, f1, f2, f3, f4, f5⟩ := one M.alphabet.unknown (.inr (.inl rfl)) s1 (hp.after e2)
      rw [e1, Outcome.bind, f1]
      refine ⟨s2, rfl, ?_, ?_, ?_⟩
      · have := e2.trans f2
        rw [e2.flags, e2.weight] at this
        refine this.mono ?_
        intro r
        constructor
        · rintro (⟨a, ha, ⟨h1, h2⟩, h3⟩ | ⟨a, ha, ⟨h1, h2⟩, h3⟩)
          · exact ⟨a, ha, (hd a).mpr ⟨by rw [h2]; exact h1, .inl h2⟩, h3⟩
          · exact ⟨a, ha, (hd a).mpr ⟨by rw [h2]; exact h1, .inr h2⟩, h3⟩
        · rintro ⟨a, ha, h1, h3⟩
          obtain ⟨h1, h2 | h2⟩ := (hd a).mp h1
          · exact .inl ⟨a, ha, ⟨by rw [← h2]; exact h1, h2⟩, h3⟩
          · exact .inr ⟨a, ha, ⟨by rw [← h2]; exact h1, h2⟩, h3⟩
      · rintro ⟨a, ha, h⟩
        obtain ⟨h1, h2 | h2⟩ := (hd a).mp h
        · exact f5 (e3 ⟨a, ha, by rw [← h2]; exact h1, h2⟩)
        · exact f3 ⟨a, ha, by rw [← h2]; exact h1, h2⟩
      · intro h
        rw [f4, e4]
        · rintro a ha ⟨h1, h2⟩
          exact h a ha ((hd a).mpr ⟨by rw [h2]; exact h1, .inl h2⟩)
        · rintro a ha ⟨h1, h2⟩
          exact h a ha ((hd a).mpr ⟨by rw [h2]; exact h1, .inr h2⟩)
  obtain ⟨s1, e1, e2, e3, e4⟩ := key
  unfold consume
  rw [e1, Outcome.bind]
  by_cases hdef : M.alphabet.default ≠ noSymbol ∧ s1.found = false
  · rw [if_pos hdef]
    have hnodirect : ∀ a ∈ N.arcs q, ¬ M.kinds.Direct z a := by
      intro a ha h
      have := e3 ⟨a, ha, h⟩
      rw [hdef.2] at this
      cases this
    have hs1 : s1 = s := e4 hnodirect
    have hfree := h2 (by rw [← hs1]; exact hdef.2)
    obtain ⟨s2, f1, f2, _, _⟩ := hfind M.alphabet.default (hspecial _ hdef.1 (.inr (.inr rfl)) (.inl rfl)) s1 (hp.after e2)
    rw [f1]
    refine ⟨s2, rfl, ?_⟩
    have := e2.trans f2
    rw [e2.flags, e2.weight] at this
    refine this.mono ?_
    intro r
    constructor
    · rintro (⟨a, ha, h, h'⟩ | ⟨a, ha, h, h'⟩)
      · exact ⟨a, ha, .inl h, h'⟩
      · refine ⟨a, ha, .inr ⟨by rw [h]; exact hdef.1, h, ?_⟩, h'⟩
        intro b hb
        refine ⟨?_, hnodirect b hb⟩
        rcases hfree with hfree | hfree
        · exact hfree b hb
        · exfalso
          have := hS.special M.alphabet.default hdef.1 (.inr (.inr rfl))
          rcases hfree a ha with h' | h'
          · exact this.1 (h.symm.trans h')
          · rw [h] at h'
            exact this.2 h'
    · rintro ⟨a, ha, h | ⟨h, h', _⟩, h''⟩
      · exact .inl ⟨a, ha, h, h''⟩
      · exact .inr ⟨a, ha, h', h''⟩
  · rw [if_neg hdef]
    refine ⟨s1, rfl, e2.mono ?_⟩
    intro r
    constructor
    · rintro ⟨a, ha, h, h'⟩
      exact ⟨a, ha, .inl h, h'⟩
    · rintro ⟨a, ha, h | ⟨h, h', hno⟩, h''⟩
      · exact ⟨a, ha, h, h''⟩
      · exfalso
        apply hdef
        refine ⟨fun hd => h (h'.trans hd), ?_⟩
        rw [e4 fun b hb => (hno b hb).2]
        cases hf : s.found with
        | false => rfl
        | true =>
          obtain ⟨b, hb, hb'⟩ := h1 hf
          exact absurd hb' (hno b hb).1

theorem final_spec {M : Machine} {N : Net} {pos rank : Nat → Nat} {ks : List Nat} {q ip op : Nat} {p : List (Nat × Nat)} {s : LState}
    (hp : Pre M N pos rank ks q ip op p s) (hsmall : M.alphabet.table.length ≤ noSymbol) (he : M.enough s = false) (fw : Option Int) :
    ∃ s', checkFinal M op fw s = .ok s' ∧ s'.found = s.found ∧
      Adds M op s s' (fun r => ∃ w, fw = some w ∧ r.1 = s.weight + w ∧ tapeStrings M.alphabet p = some r.2) := by
  unfold checkFinal
  rw [he, if_neg (by simp)]
  dsimp only
  have hout : (writeTape s.out op (noSymbol, noSymbol)).take op = p := by rw [write_take' hp.size, hp.out]
  have hsize : op < (writeTape s.out op (noSymbol, noSymbol)).length :=
    (List.getElem?_eq_some_iff.mp (write_get (tape := s.out) (pos := op) (noSymbol, noSymbol))).1
  cases fw with
  | none =>
    refine ⟨_, rfl, rfl, ⟨fun _ h => h, fun _ h => .inl h, ?_, Nat.le_refl _, fun _ => ?_, rfl, rfl, ?_, ?_, fun _ h => h⟩⟩
    · rintro _ r ⟨w, h, _⟩
      cases h
    · show (s.results.length : Int) ≤ _
      omega
    · dsimp only
      rw [hout, hp.out]
    · dsimp only
      omega
  | some w =>
    dsimp only
    obtain ⟨l, hl⟩ := strings_some hp.written
    have hsplit : writeTape s.out op (noSymbol, noSymbol) =
        p ++ (noSymbol, noSymbol) :: (writeTape s.out op (noSymbol, noSymbol)).drop (op + 1) := by
      rw [← hout]
      have h1 := List.take_append_drop op (writeTape s.out op (noSymbol, noSymbol))
      have h2 : (writeTape s.out op (noSymbol, noSymbol)).drop op =
          (noSymbol, noSymbol) :: (writeTape s.out op (noSymbol, noSymbol)).drop (op + 1) := by
        rw [List.drop_eq_getElem_cons hsize]
        congr 1
        have := write_get (tape := s.out) (pos := op) (noSymbol, noSymbol)
        rw [List.getElem?_eq_getElem hsize] at this
        injection this
      rw [h2] at h1
      exact h1.symm
    have htake : (writeTape s.out op (noSymbol, noSymbol)).takeWhile (fun x => decide (x.2 ≠ noSymbol)) = p := by
      rw [hsplit, List.takeWhile_append_of_pos]
      · rw [List.takeWhile_cons_of_neg (by simp), List.append_nil]
      · intro x hx
        have := (hp.written x hx).2
        simp only [ne_eq, decide_not, Bool.not_eq_eq_eq_not, Bool.not_true, decide_eq_false_iff_not]
        omega
    unfold noteAnalysis
    dsimp only
    rw [htake, if_neg (by rw [hp.length]; omega), hl]
    dsimp only
    refine ⟨_, rfl, rfl, ⟨?_, ?_, ?_, ?_, ?_, rfl, rfl, ?_, ?_, fun _ h => h⟩⟩
    · intro r hr
      exact mem_setInsert.mpr (.inr hr)
    · intro r hr
      rcases mem_setInsert.mp hr with rfl | hr
      · exact .inr ⟨w, rfl, rfl, rfl⟩
      · exact .inl hr
    · rintro _ r ⟨w', h1, h2, h3⟩
      injection h1 with h1
      injection h3 with h3
      refine mem_setInsert.mpr (.inl (Prod.ext ?_ h3.symm))
      rw [h2, ← h1]
    · show s.results.length ≤ (setInsert s.results _).length
      unfold setInsert
      split_ifs <;> simp
    · intro hlim
      show ((setInsert s.results _).length : Int) ≤ _
      have : ¬ (0 ≤ M.limit ∧ M.limit ≤ s.results.length) := by
        unfold Machine.enough at he
        exact of_decide_eq_false he
      have hle : (setInsert s.results (s.weight + w, l)).length ≤ s.results.length + 1 := by
        unfold setInsert
        split_ifs <;> simp
      omega
    · dsimp only
      rw [hout, hp.out]
    · dsimp only
      omega

/-- What the transitions that read nothing add at a state. -/
def EpsSpec (M : Machine) (N : Net) (pos rank : Nat → Nat) (ks : List Nat) (d : Nat) (q ip op : Nat)
    (p : List (Nat × Nat)) (eps : LState → Outcome LState) : Prop :=
  ∀ s, Pre M N pos rank ks q ip op p s → s.found = false → ∃ s', eps s = .ok s' ∧
    Adds M op s s' (fun r => ∃ a ∈ N.arcs q, M.kinds.Free a ∧ Behind M.kinds N d (ks.drop ip) s.flags p s.weight (a, none) r) ∧
    (s'.found = true → ∃ b ∈ N.arcs q, M.kinds.Free b) ∧
    (s'.found = false → (∀ b ∈ N.arcs q, ¬ M.kinds.Free b) ∨ ∀ b ∈ N.arcs q, M.kinds.Free b)

theorem eps_index_spec {M : Machine} {n : Inputs} {N : Net} {pos rank : Nat → Nat} {ks : List Nat} {d : Nat} {call : Call}
    (hR : Represents M n N pos) (hS : SymbolsOK M.kinds n N) (hr : Ranked M.kinds N pos rank)
    (hc : Spec M N pos rank ks d call) {q ip op : Nat} {p : List (Nat × Nat)} (hI : InIndex M n N pos q) :
    EpsSpec M N pos rank ks d q ip op p (tryEpsilonIndices M call ip op (pos q + 1)) := by
  intro s hp hfound
  obtain ⟨e, h1, h2⟩ := hI.free
  rw [Nat.add_zero] at h1
  unfold tryEpsilonIndices
  rw [table_get hR.indexSize h1]
  dsimp only
  rcases h2 with ⟨h2, h3⟩ | ⟨h2, _, l, h4, h5, h6⟩
  · rw [if_neg h2]
    refine ⟨s, rfl, Adds.refl hp.size ?_, ?_, fun _ => .inl h3⟩
    · rintro r ⟨a, ha, hy, _⟩
      exact h3 a ha hy
    · intro h
      rw [hfound] at h
      cases h
  · rw [if_pos h2]
    have hlen : l.length < M.transitions.length + 1 := by
      obtain ⟨t, ht, _⟩ := h6.2
      have := (List.getElem?_eq_some_iff.mp ht).1
      omega
    obtain ⟨s', c1, c2, _⟩ := eps_spec hR hS hr hc l (M.transitions.length + 1) (e.target - targetStart) s hp
      (fun a ha => (h5 a).mp ha) h6 hlen
    rw [c1, Outcome.bind]
    refine ⟨_, rfl, ?_, fun _ => ?_, fun h => by cases h⟩
    · have : Adds M op s { s' with found := true }
          (fun r => ∃ a ∈ l, Behind M.kinds N d (ks.drop ip) s.flags p s.weight (a, none) r) :=
        ⟨c2.keep, c2.sound, c2.full, c2.len, c2.cap, c2.flags, c2.weight, c2.out, c2.size, c2.seen⟩
      refine this.mono ?_
      intro r
      constructor
      · rintro ⟨a, ha, h⟩
        exact ⟨a, ((h5 a).mp ha).1, ((h5 a).mp ha).2, h⟩
      · rintro ⟨a, ha, hy, h⟩
        exact ⟨a, (h5 a).mpr ⟨ha, hy⟩, h⟩
    · obtain ⟨a, l', rfl⟩ := List.exists_cons_of_ne_nil h4
      exact ⟨a, (h5 a).mp (List.mem_cons_self ..)⟩

theorem eps_transitions_spec {M : Machine} {n : Inputs} {N : Net} {pos rank : Nat → Nat} {ks : List Nat} {d : Nat} {call : Call}
    (hR : Represents M n N pos) (hS : SymbolsOK M.kinds n N) (hr : Ranked M.kinds N pos rank)
    (hc : Spec M N pos rank ks d call) {q ip op : Nat} {p : List (Nat × Nat)} (hT : InTransitions M n N pos q) :
    EpsSpec M N pos rank ks d q ip op p
      (tryEpsilonTransitions M call ip op (M.transitions.length + 1) (pos q - targetStart + 1)) := by
  intro s hp hfound
  obtain ⟨l, h1, h2⟩ := hT.block
  have hlen : l.length < M.transitions.length + 1 := by
    obtain ⟨t, ht, _⟩ := h2.2
    have := (List.getElem?_eq_some_iff.mp ht).1
    omega
  rcases hT.kind with hk | ⟨x, hx, hk⟩
  · obtain ⟨s', c1, c2, c3⟩ := eps_spec hR hS hr hc l (M.transitions.length + 1) (pos q - targetStart + 1) s hp
      (fun a ha => ⟨(h1 a).mp ha, hk a ((h1 a).mp ha)⟩)
      ⟨h2.1, by
        obtain ⟨t, ht, ht'⟩ := h2.2
        have ht' : t.input = noSymbol := ht'
        exact ⟨t, ht, by rw [ht']; decide, by rw [ht']; exact hS.none⟩⟩ hlen
    refine ⟨s', c1, c2.mono ?_, ?_, fun _ => .inr hk⟩
    · intro r
      constructor
      · rintro ⟨a, ha, h⟩
        exact ⟨a, (h1 a).mp ha, hk a ((h1 a).mp ha), h⟩
      · rintro ⟨a, ha, _, h⟩
        exact ⟨a, (h1 a).mpr ha, h⟩
    · intro h
      cases l with
      | nil => rw [c3 rfl, hfound] at h; cases h
      | cons a l' => exact ⟨a, (h1 a).mp (List.mem_cons_self ..), hk a ((h1 a).mp (List.mem_cons_self ..))⟩
  · have hno : ∀ b ∈ N.arcs q, ¬ M.kinds.Free b := by
      rintro b hb (h | h)
      · exact hx.1 ((hk b hb).symm.trans h)
      · rw [hk b hb] at h
        exact hx.2.2.1 h
    have hstop : Block M pos (pos q - targetStart + 1) [] (fun t => t.input ≠ 0 ∧ ¬ M.kinds.Flag t.input) := by
      refine ⟨fun k a h => (by simp at h), ?_⟩
      cases l with
      | nil =>
        obtain ⟨t, ht, ht'⟩ := h2.2
        have ht' : t.input = noSymbol := ht'
        exact ⟨t, ht, by rw [ht']; decide, by rw [ht']; exact hS.none⟩
      | cons a l' =>
        obtain ⟨⟨t, ht, e1, _⟩, _⟩ := block_head h2
        have : t.input = x := e1.trans (hk a ((h1 a).mp (List.mem_cons_self ..)))
        refine ⟨t, ?_, by rw [this]; exact hx.1, by rw [this]; exact hx.2.2.1⟩
        rw [List.length_nil, Nat.add_zero]
        exact ht
    obtain ⟨s', c1, c2, c3⟩ := eps_spec hR hS hr hc [] (M.transitions.length + 1) (pos q - targetStart + 1) s hp
      (fun a ha => by cases ha) hstop (by simp)
    refine ⟨s', c1, c2.mono ?_, ?_, fun _ => .inl hno⟩
    · intro r
      constructor
      · rintro ⟨a, ha, h⟩
        cases ha
      · rintro ⟨a, ha, h, _⟩
        exact absurd h (hno a ha)
    · intro h
      rw [c3 rfl, hfound] at h
      cases h

theorem visit_spec {M : Machine} {n : Inputs} {N : Net} {pos rank : Nat → Nat} {ks rest : List Nat} {d : Nat}
    (hS : SymbolsOK M.kinds n N) (hK : TapeOK M.kinds n ks) (ht : M.tape = ks ++ noSymbol :: rest) {q ip op x : Nat}
    {p : List (Nat × Nat)} {eps : LState → Outcome LState} {find : Nat → LState → Outcome LState} {s : LState}
    (hx : M.tape[ip]? = some x) (hp : Pre M N pos rank ks q ip op p s) (hfound : s.found = false) (he : M.enough s = false)
    (h1 : EpsSpec M N pos rank ks d q ip op p eps)
    (h2 : ip < ks.length → x < M.alphabet.table.length → FindSpec M n N pos rank ks d q ip op x p find) :
    ∃ s', visit M op x (N.final q) eps find s = .ok s' ∧
      Adds M op s s' (Found M.kinds N (d + 1) q (ks.drop ip) s.flags p s.weight) := by
  unfold visit
  rw [ht] at hx
  by_cases hip : ip < ks.length
  · rw [List.getElem?_append_left hip] at hx
    have hmem : x ∈ ks := List.mem_of_getElem? hx
    have hlt : x < M.alphabet.table.length := (hK x hmem).2.2.2
    have hne : x ≠ noSymbol := by
      have h := hS.small
      have h' : M.kinds.al.table.length = M.alphabet.table.length := rfl
      omega
    have hdrop : ks.drop ip = x :: ks.drop (ip + 1) := by
      rw [List.drop_eq_getElem_cons hip]
      rw [List.getElem?_eq_getElem hip] at hx
      injection hx with hx
      rw [hx]
    rw [if_neg hne, Outcome.bind]
    obtain ⟨s1, c1, c2, c3, c4⟩ := h1 s hp hfound
    rw [c1, Outcome.bind, if_neg hne]
    obtain ⟨s2, e1, e2⟩ := consume_spec hS hK hmem (h2 hip hlt) (hp.after c2) c3 c4
    rw [e1, Outcome.bind]
    refine ⟨_, rfl, ?_⟩
    have h3 := c2.trans e2
    have h3 : Adds M op s { s2 with out := writeTape s2.out op (noSymbol, noSymbol) } _ :=
      ⟨h3.keep, h3.sound, h3.full, h3.len, h3.cap, h3.flags, h3.weight,
        by dsimp only; rw [write_take' h3.size]; exact h3.out,
        Nat.le_of_lt (List.getElem?_eq_some_iff.mp (write_get (tape := s2.out) (pos := op) (noSymbol, noSymbol))).1, h3.seen⟩
    rw [c2.flags, c2.weight] at h3
    refine h3.mono ?_
    intro r
    rw [found_succ]
    constructor
    · rintro (h | h)
      · exact .inr (.inl h)
      · exact .inr (.inr ⟨x, ks.drop (ip + 1), hdrop, h⟩)
    · rintro (⟨h, _⟩ | h | ⟨y, ks', hy, h⟩)
      · rw [hdrop] at h; cases h
      · exact .inl h
      · rw [hdrop] at hy
        injection hy with hy hy'
        subst hy hy'
        exact .inr h
  · have hip' : ip = ks.length := by have := hp.tape; omega
    subst hip'
    rw [List.getElem?_append_right (Nat.le_refl _), Nat.sub_self] at hx
    injection hx with hx
    subst hx
    rw [if_pos rfl]
    obtain ⟨s1, c1, c0, c2⟩ := final_spec hp hS.small he (N.final q)
    rw [c1, Outcome.bind]
    obtain ⟨s2, e1, e2, _⟩ := h1 s1 (hp.after c2) (c0.trans hfound)
    rw [e1, Outcome.bind, if_pos rfl]
    refine ⟨_, rfl, ?_⟩
    have h3 := c2.trans e2
    rw [c2.flags, c2.weight] at h3
    refine h3.mono ?_
    intro r
    rw [found_succ, List.drop_length]
    constructor
    · rintro (h | h)
      · exact .inl ⟨rfl, h⟩
      · exact .inr (.inl h)
    · rintro (⟨_, h⟩ | h | ⟨y, ks', hy, h⟩)
      · exact .inl h
      · exact .inr h
      · cases hy

theorem analyses_spec {M : Machine} {n : Inputs} {N : Net} {pos rank : Nat → Nat} {ks rest : List Nat}
    (hR : Represents M n N pos) (hS : SymbolsOK M.kinds n N) (hr : Ranked M.kinds N pos rank) (hK : TapeOK M.kinds n ks)
    (ht : M.tape = ks ++ noSymbol :: rest) : ∀ d, Spec M N pos rank ks d (getAnalyses M d)
  | 0 => by
    intro q ip op p s hp
    refine ⟨_, rfl, ?_⟩
    have h : Adds M op s s (Found M.kinds N 0 q (ks.drop ip) s.flags p s.weight) := Adds.refl hp.size fun r => found_zero
    exact ⟨h.keep, h.sound, h.full, h.len, h.cap, h.flags, h.weight, h.out, h.size, h.seen⟩
  | d + 1 => by
    have ih := analyses_spec hR hS hr hK ht d
    intro q ip op p s hp
    rw [getAnalyses]
    by_cases he : M.enough s = true
    · rw [if_pos he]
      exact ⟨_, rfl, Adds.full_skip hp.size he rfl rfl rfl rfl rfl⟩
    · rw [if_neg he]
      have he : M.enough s = false := by simpa using he
      have hget : ∃ x, M.tape[ip]? = some x := by
        refine ⟨_, List.getElem?_eq_getElem ?_⟩
        rw [ht, List.length_append, List.length_cons]
        have := hp.tape
        omega
      obtain ⟨x, hx⟩ := hget
      rw [hx]
      dsimp only
      have hp0 : Pre M N pos rank ks q ip op p { s with found := false } :=
        ⟨hp.state, hp.tape, hp.out, hp.length, hp.written, hp.flags, hp.seen⟩
      have fin : ∀ s', Adds M op { s with found := false } s' (Found M.kinds N (d + 1) q (ks.drop ip) s.flags p s.weight) →
          Adds M op s s' (Found M.kinds N (d + 1) q (ks.drop ip) s.flags p s.weight) := fun s' h =>
        ⟨h.keep, h.sound, h.full, h.len, h.cap, h.flags, h.weight, h.out, h.size, h.seen⟩
      rcases hR.placed q hp.state with hI | hT
      · rw [if_neg (Nat.not_le.mpr hI.low)]
        obtain ⟨e, h1, h2⟩ := hI.state
        rw [table_get hR.indexSize h1]
        dsimp only
        rw [marks_index h2]
        obtain ⟨s', c1, c2⟩ := visit_spec hS hK ht hx hp0 rfl he (eps_index_spec hR hS hr ih hI)
          (fun hip hlt => find_index_spec hR hS ih hI hx hip hlt)
        exact ⟨s', c1, fin s' c2⟩
      · rw [if_pos hT.high]
        obtain ⟨e, h1, h2⟩ := hT.state
        rw [table_get hR.transSize h1]
        dsimp only
        rw [marks_trans h2]
        obtain ⟨s', c1, c2⟩ := visit_spec hS hK ht hx hp0 rfl he (eps_transitions_spec hR hS hr ih hT)
          (fun hip hlt => find_transitions_spec hR hS ih hT hx hip hlt)
        exact ⟨s', c1, fin s' c2⟩

theorem found_analysis {K : Kinds} {N : Net} {d : Nat} {ks : List Nat} {st : Flags.FdState} {r : TwoLevel} :
    Found K N d 0 ks st [] 0 r ↔ ∃ l, l.length < d ∧ Analysis K N st ks l r := by
  constructor
  · rintro ⟨l, q, w, h1, h2, h3, h4, h5, h6, h7⟩
    exact ⟨l, h2, q, w, h1, h3, h4, h5, by rw [h6]; omega, h7⟩
  · rintro ⟨l, h2, q, w, h1, h3, h4, h5, h6, h7⟩
    exact ⟨l, q, w, h1, h2, h3, h4, h5, by rw [h6]; omega, h7⟩

theorem lookup_spec {M : Machine} {n : Inputs} {N : Net} {pos : Nat → Nat} {ks rest : List Nat} {st : Flags.FdState}
    (hR : Represents M n N pos) (hS : SymbolsOK M.kinds n N) (hr : NoFlagCycle M.kinds N pos) (hK : TapeOK M.kinds n ks)
    (ht : M.tape = ks ++ noSymbol :: rest) (hst : st.values.length = M.fd.numFeatures) (out : List (Nat × Nat)) (d : Nat) :
    ∃ s', getAnalyses M d 0 0 0 ⟨out, st, [], false, 0, []⟩ = .ok s' ∧
      Adds M 0 ⟨out, st, [], false, 0, []⟩ s' fun r => ∃ l, l.length < d ∧ Analysis M.kinds N st ks l r := by
  obtain ⟨rank, hr⟩ := hr
  obtain ⟨s', h1, h2⟩ := analyses_spec (rank := rank) hR hS hr hK ht d 0 0 0 [] ⟨out, st, [], false, 0, []⟩
    ⟨hR.nonempty, Nat.zero_le _, rfl, rfl, fun x hx => (by cases hx), hst, fun x hx => (by cases hx)⟩
  rw [hR.start] at h1
  refine ⟨s', h1, h2.mono ?_⟩
  intro r
  rw [List.drop_zero]
  exact found_analysis

/-- **C39, optimized lookup finds what the transducer accepts.**  Let the tables represent a transducer, let `ks` be on the input tape, and
let no cycle of transitions without input have a flag.  Then a lookup without a limit ends, reads nothing outside the tables, and its
results are just the analyses of the input by runs that are allowed by their flags; for each the weight is the sum of the weights of the
run and the final weight.  Only runs with fewer than 5000 transitions are found. -/
theorem C39_lookup_partial {M : Machine} {n : Inputs} {N : Net} {pos : Nat → Nat} {ks rest : List Nat} {st : Flags.FdState}
    (hR : Represents M n N pos) (hS : SymbolsOK M.kinds n N) (hr : NoFlagCycle M.kinds N pos) (hK : TapeOK M.kinds n ks)
    (ht : M.tape = ks ++ noSymbol :: rest) (hst : st.values.length = M.fd.numFeatures) (out : List (Nat × Nat))
    (hlimit : M.limit < 0) :
    ∃ rs, lookupPairs M st out = .ok rs ∧ ∀ r, r ∈ rs ↔ ∃ l, l.length < 5000 ∧ Analysis M.kinds N st ks l r := by
  obtain ⟨s', h1, h2⟩ := lookup_spec hR hS hr hK ht hst out maxDepth
  refine ⟨s'.results, by unfold lookupPairs; rw [h1, Outcome.bind], ?_⟩
  intro r
  constructor
  · intro h
    exact (h2.sound r h).resolve_left (by simp)
  · intro h
    refine h2.full ?_ r h
    unfold Machine.enough
    apply decide_eq_false
    omega

/-- **C39, with a limit**: there are at most so many results, each is an analysis, and if there are fewer, none is missing. -/
theorem C39_limit_partial {M : Machine} {n : Inputs} {N : Net} {pos : Nat → Nat} {ks rest : List Nat} {st : Flags.FdState}
    (hR : Represents M n N pos) (hS : SymbolsOK M.kinds n N) (hr : NoFlagCycle M.kinds N pos) (hK : TapeOK M.kinds n ks)
    (ht : M.tape = ks ++ noSymbol :: rest) (hst : st.values.length = M.fd.numFeatures) (out : List (Nat × Nat))
    (hlimit : 0 ≤ M.limit) :
    ∃ rs, lookupPairs M st out = .ok rs ∧ (rs.length : Int) ≤ M.limit ∧ (∀ r ∈ rs, ∃ l, Analysis M.kinds N st ks l r) ∧
      ((rs.length : Int) < M.limit → ∀ l r, l.length < 5000 → Analysis M.kinds N st ks l r → r ∈ rs) := by
  obtain ⟨s', h1, h2⟩ := lookup_spec hR hS hr hK ht hst out maxDepth
  refine ⟨s'.results, by unfold lookupPairs; rw [h1, Outcome.bind], ?_, ?_, ?_⟩
  · have := h2.cap hlimit
    simp only [List.length_nil] at this
    omega
  · intro r h
    obtain ⟨l, _, h⟩ := (h2.sound r h).resolve_left (by simp)
    exact ⟨l, h⟩
  · intro hlt l r hl h
    refine h2.full ?_ r ⟨l, hl, h⟩
    unfold Machine.enough
    apply decide_eq_false
    omega

theorem run_bound {K : Kinds} {N : Net} {rank : Nat → Nat} {R : Nat} (hrank : ∀ q, rank q < R)
    (hr : ∀ q, ∀ a ∈ N.arcs q, K.Free a → rank a.target < rank q) {q q' : Nat} {l : List (NArc × Option Nat)}
    (h : NRun K N q l q') : l.length ≤ rank q + (readBy l).length * R := by
  induction h with
  | nil => simp
  | @cons q r a c l ha ht _ ih =>
    cases c with
    | none =>
      have := hr q a ha ht
      show l.length + 1 ≤ rank q + (readBy l).length * R
      omega
    | some x =>
      have := hrank a.target
      show l.length + 1 ≤ rank q + (x :: readBy l).length * R
      rw [List.length_cons, Nat.succ_mul]
      omega

/-- **C39, without cycles**: if no cycle of the transducer is without input, and the input is not too long, then the results are all the
analyses.  `R` is how many states there can be in a row without input. -/
theorem C39_lookup {M : Machine} {n : Inputs} {N : Net} {pos : Nat → Nat} {ks rest : List Nat} {st : Flags.FdState}
    (hR : Represents M n N pos) (hS : SymbolsOK M.kinds n N) (hK : TapeOK M.kinds n ks)
    (ht : M.tape = ks ++ noSymbol :: rest) (hst : st.values.length = M.fd.numFeatures) (out : List (Nat × Nat))
    (hlimit : M.limit < 0) {rank : Nat → Nat} {R : Nat} (hrank : ∀ q, rank q < R)
    (hpos : ∀ q < N.size, ∀ q' < N.size, pos q = pos q' → q = q')
    (hr : ∀ q, ∀ a ∈ N.arcs q, M.kinds.Free a → rank a.target < rank q) (hlen : (ks.length + 1) * R ≤ 5000) :
    ∃ rs, lookupPairs M st out = .ok rs ∧ ∀ r, r ∈ rs ↔ ∃ l, Analysis M.kinds N st ks l r := by
  have hcycle : NoFlagCycle M.kinds N pos := by
    classical
    refine ⟨fun x => if h : ∃ q, q < N.size ∧ pos q = x then rank h.choose else 0, ?_⟩
    have hval : ∀ q < N.size, (if h : ∃ q', q' < N.size ∧ pos q' = pos q then rank h.choose else 0) = rank q := by
      intro q hq
      have hex : ∃ q', q' < N.size ∧ pos q' = pos q := ⟨q, hq, rfl⟩
      rw [dif_pos hex, hpos _ hex.choose_spec.1 q hq hex.choose_spec.2]
    intro q hq a ha
    dsimp only
    rw [hval q hq, hval _ (hR.closed q hq a ha)]
    exact ⟨fun h => Nat.le_of_lt (hr q a ha (.inl h)), fun h => hr q a ha (.inr h)⟩
  obtain ⟨rs, h1, h2⟩ := C39_lookup_partial hR hS hcycle hK ht hst out hlimit
  refine ⟨rs, h1, fun r => (h2 r).trans ⟨fun ⟨l, _, h⟩ => ⟨l, h⟩, ?_⟩⟩
  rintro ⟨l, q, w, h3, h4, h5, h6⟩
  refine ⟨l, ?_, q, w, h3, h4, h5, h6⟩
  have := run_bound hrank hr h3
  rw [h5] at this
  have := hrank 0
  rw [Nat.succ_mul] at hlen
  omega

theorem mem_outputsOnly {o : Int × List Bytes} : ∀ {rs : List TwoLevel} {acc : List (Int × List Bytes)},
    o ∈ outputsOnly rs acc ↔ o ∈ acc ∨ ∃ r ∈ rs, o = (r.1, r.2.map (·.2))
  | [], acc => by simp [outputsOnly]
  | r :: rs, acc => by
    rw [outputsOnly, mem_outputsOnly, mem_setInsert]
    simp only [List.mem_cons, exists_eq_or_imp]
    rw [or_comm (a := o = _), or_assoc]

/-! ## Lookup of a string -/

theorem represents_with {M : Machine} {n : Inputs} {N : Net} {pos : Nat → Nat} (h : Represents M n N pos) (table : List Bytes)
    (tape : List Nat) : Represents (M.withInput table tape) n N pos where
  nonempty := h.nonempty
  closed := h.closed
  start := h.start
  placed q hq := (h.placed q hq).imp (fun h => ⟨h.low, h.state, h.free, h.symbol⟩) (fun h => ⟨h.high, h.state, h.block, h.kind⟩)
  indexSize := h.indexSize
  transSize := h.transSize

theorem symbols_with {M : Machine} {n : Inputs} {N : Net} (h : SymbolsOK M.kinds n N) {table : List Bytes}
    (tape : List Nat) (h1 : M.alphabet.table.length ≤ table.length) (h2 : table.length ≤ noSymbol) :
    SymbolsOK (M.withInput table tape).kinds n N where
  small := h2
  inputs := h.inputs
  none := h.none
  epsilon := h.epsilon
  special := h.special
  features := h.features
  known q hq a ha := ⟨Nat.lt_of_lt_of_le (h.known q hq a ha).1 h1, Nat.lt_of_lt_of_le (h.known q hq a ha).2 h1⟩

theorem reads_numbers {n size : Nat} {table table' : List Bytes} {s : Bytes} {q : Option (List Nat)}
    (h : Reads n size table s q table') : size ≤ table.length → ∀ ks, q = some ks → ∀ x ∈ ks, (x < n ∨ size ≤ x) ∧ x < table'.length ∧
      ∀ y, table'[x]? = some y → y <:+: s := by
  induction h with
  | done =>
    intro _ ks hq
    injection hq with hq
    subst hq
    intro x hx
    cases hx
  | @known table table' x rest k q hl hr ih =>
    intro hsize ks hq
    match q, hq with
    | some ks', hq =>
      injection hq with hq
      subst hq
      intro z hz
      rcases List.mem_cons.mp hz with rfl | hz
      · have hget := prefix_get (C37_grows hr) hl.knows.2
        refine ⟨hl.knows.1, (List.getElem?_eq_some_iff.mp hget).1, ?_⟩
        intro y hy
        rw [hget] at hy
        injection hy with hy
        rw [← hy]
        exact (List.prefix_append x rest).isInfix
      · obtain ⟨h1, h2, h3⟩ := ih hsize ks' rfl z hz
        exact ⟨h1, h2, fun y hy => (h3 y hy).trans (List.suffix_append x rest).isInfix⟩
  | @new table table' x rest c q hu hc hx hr ih =>
    intro hsize ks hq
    match q, hq with
    | some ks', hq =>
      injection hq with hq
      subst hq
      intro z hz
      rcases List.mem_cons.mp hz with rfl | hz
      · have hget := prefix_get (C37_grows hr) (k := table.length) (x := x) (by simp)
        refine ⟨.inr hsize, (List.getElem?_eq_some_iff.mp hget).1, ?_⟩
        intro y hy
        rw [hget] at hy
        injection hy with hy
        rw [← hy]
        exact (List.prefix_append x rest).isInfix
      · obtain ⟨h1, h2, h3⟩ := ih (by rw [List.length_append]; omega) ks' rfl z hz
        exact ⟨h1, h2, fun y hy => (h3 y hy).trans (List.suffix_append x rest).isInfix⟩
  | bad _ _ =>
    intro _ ks hq
    cases hq

/-- The new symbols take no more room than the input. -/
theorem reads_length {n size : Nat} {table table' : List Bytes} {s : Bytes} {q : Option (List Nat)}
    (h : Reads n size table s q table') : table'.length ≤ table.length + s.length := by
  induction h with
  | done => simp
  | known _ _ ih => rw [List.length_append]; omega
  | @new table table' x rest c q hu hc hx hr ih =>
    rw [List.length_append, List.length_singleton] at ih
    rw [List.length_append]
    have : 0 < x.length := by
      cases x with
      | nil => cases hc
      | cons => simp
    omega
  | bad _ _ => simp

theorem reads_chars {n size : Nat} {table table' : List Bytes} {s : Bytes} {q : Option (List Nat)}
    (h : Reads n size table s q table') : Chars s → (∀ x ∈ table, Chars x) → ∀ x ∈ table', Chars x := by
  induction h with
  | done => exact fun _ h => h
  | @known table table' x rest k q hl _ ih =>
    exact fun hs ht => ih (chars_drop (ht x (List.mem_of_getElem? hl.knows.2)) hs) ht
  | @new table table' x rest c q hu hc hx hr ih =>
    intro hs ht
    have hx' : Chars x := by
      cases x with
      | nil => cases hc
      | cons d x =>
        injection hc with hc
        subst hc
        have := Chars.char (c := d) (x := x) (by simpa using hx) .nil
        simpa using this
    refine ih (chars_drop hx' hs) ?_
    intro y hy
    rcases List.mem_append.mp hy with hy | hy
    · exact ht y hy
    · rw [List.mem_singleton.mp hy]; exact hx'
  | bad _ _ => exact fun _ h => h

/-- What the transducer must be like for the lookup of strings: the symbol table has `orig` symbols, which are strings of whole
characters, and flags are symbols of the table that are not input symbols. -/
structure TextOK (M : Machine) (n : Inputs) : Prop where
  size : M.alphabet.table.length = M.orig
  nonempty : 0 < M.orig
  inputs : n.count ≤ M.orig
  symbols : ∀ x ∈ M.alphabet.table, x ≠ [] ∧ 0 ∉ x ∧ Chars x
  flags : ∀ x, M.kinds.Flag x → n.count ≤ x ∧ x < M.orig

/-- An input string: no NUL bytes, whole characters, and it does not contain the name of the empty symbol, which has number 0.  If there
is no room for unknown symbols, it has none. -/
def TextInput (M : Machine) (n : Inputs) (s : Bytes) : Prop :=
  0 ∉ s ∧ Chars s ∧ (∀ x, M.alphabet.table[0]? = some x → ¬ x <:+: s) ∧
    (n.unknowns ∨ ∀ ks table', Reads n.count M.orig M.alphabet.table s (some ks) table' → table' = M.alphabet.table)

/-- What holds between two lookups; at most `k` symbols were added. -/
structure SessionOK (M : Machine) (n : Inputs) (k : Nat) (S : Session) : Prop where
  table : ∃ extra, S.table = M.alphabet.table ++ extra ∧ EncInv (knownOf M.alphabet.table n.count extra) S.encoder ∧ extra.length ≤ k ∧ (n.unknowns ∨ extra = [])
  chars : ∀ x ∈ S.table, Chars x
  flags : S.flags = Flags.FdState.init M.fd.numFeatures

theorem text_spec {M : Machine} {n : Inputs} {N : Net} {pos : Nat → Nat} (hR : Represents M n N pos) (hS : SymbolsOK M.kinds n N)
    (hr : NoFlagCycle M.kinds N pos) (hT : TextOK M n) {S : Session} {k : Nat} (hsess : SessionOK M n k S)
    {s : Bytes} (hs : TextInput M n s) {fuel : Nat} (hf : s.length < fuel) (hroom : M.orig + k + s.length ≤ noSymbol) :
    ∃ rs S' ks, lookupText M fuel s S = .ok (rs, S') ∧ SessionOK M n (k + s.length) S' ∧
      Reads n.count M.orig S.table s (some ks) S'.table ∧
      (M.limit < 0 → ∀ o, o ∈ rs ↔ ∃ l r, l.length < 5000 ∧
        Analysis (M.withInput S'.table []).kinds N (Flags.FdState.init M.fd.numFeatures) ks l r ∧ o = (r.1, r.2.map (·.2))) := by
  obtain ⟨⟨extra, he, hinv, hk, hunk⟩, hchars, hflags⟩ := hsess
  obtain ⟨hs0, hsc, hse, hsu⟩ := hs
  have hn : n.count ≤ M.alphabet.table.length := by rw [hT.size]; exact hT.inputs
  have htab := hT.size
  have htc : ∀ (j : Nat) (x : Bytes), (j < n.count ∨ M.alphabet.table.length ≤ j) → (M.alphabet.table ++ extra)[j]? = some x → Chars x :=
    fun j x _ hx => hchars x (by rw [he]; exact List.mem_of_getElem? hx)
  rcases input_reads hn fuel s extra S.encoder hinv hs0 (by omega) hf with ⟨q, extra', e', e1, e2, e3⟩ | ⟨_, h⟩
  · obtain ⟨ks, rfl⟩ := Option.isSome_iff_exists.mp (chars_read e3 htc hsc)
    have hlen := reads_length e3
    have hnum := reads_numbers e3 (by simp) ks rfl
    have hgrow := C37_grows e3
    have hpre : M.alphabet.table <+: M.alphabet.table ++ extra' := List.prefix_append _ _
    rw [List.length_append, List.length_append] at hlen
    have hextra : n.unknowns ∨ extra' = [] := by
      rcases hunk with hu | hu
      · exact .inl hu
      · rcases hsu with hu' | hu'
        · exact .inl hu'
        · right
          rw [hu, List.append_nil, htab] at e3
          simpa using hu' ks _ e3
    have hK : TapeOK (M.withInput (M.alphabet.table ++ extra') (ks ++ noSymbol :: S.tape.drop (ks.length + 1))).kinds n ks := by
      intro x hx
      obtain ⟨h1, h2, h3⟩ := hnum x hx
      rw [htab] at h1
      refine ⟨?_, ?_, ?_, h2⟩
      · rintro rfl
        have h0 : 0 < M.alphabet.table.length := by rw [htab]; exact hT.nonempty
        have hget := List.getElem?_eq_getElem h0
        exact hse _ hget (h3 _ (prefix_get hpre hget))
      · intro h
        have := hT.flags x h
        omega
      · rcases h1 with h1 | h1
        · exact .inl h1
        · rcases hextra with hu | hu
          · exact .inr ⟨hu, h1⟩
          · rw [hu, List.append_nil, htab] at h2
            exact absurd h2 (Nat.not_lt.mpr h1)
    obtain ⟨s', c1, c2⟩ := lookup_spec (represents_with hR (M.alphabet.table ++ extra')
      (ks ++ noSymbol :: S.tape.drop (ks.length + 1))) (symbols_with hS _ (by simp) (by rw [List.length_append]; omega))
      hr hK rfl (st := Flags.FdState.init M.fd.numFeatures) (by simp [Flags.FdState.init]; rfl) S.out maxDepth
    refine ⟨outputsOnly s'.results [], ⟨M.alphabet.table ++ extra', e', ks ++ noSymbol :: S.tape.drop (ks.length + 1), s'.out, s'.flags⟩,
      ks, ?_, ⟨⟨extra', rfl, e2, by omega, hextra⟩, ?_, c2.flags⟩, ?_, ?_⟩
    · unfold lookupText
      rw [he, e1, Outcome.bind]
      dsimp only
      rw [hflags, c1, Outcome.bind]
    · exact reads_chars e3 hsc (by rw [← he]; exact hchars)
    · rw [he, ← htab]
      exact e3
    · intro hlimit o
      rw [mem_outputsOnly]
      constructor
      · rintro (h | ⟨r, hr, rfl⟩)
        · cases h
        · obtain ⟨l, h1, h2⟩ := (c2.sound r hr).resolve_left (by simp)
          exact ⟨l, r, h1, h2, rfl⟩
      · rintro ⟨l, r, h1, h2, rfl⟩
        refine .inr ⟨r, c2.full ?_ r ⟨l, h1, h2⟩, rfl⟩
        unfold Machine.enough
        apply decide_eq_false
        show ¬ (0 ≤ M.limit ∧ _)
        omega
  · exact absurd hsc (chars_not_cut h htc)

theorem many_spec {M : Machine} {n : Inputs} {N : Net} {pos : Nat → Nat} (hR : Represents M n N pos) (hS : SymbolsOK M.kinds n N)
    (hr : NoFlagCycle M.kinds N pos) (hT : TextOK M n) {fuel : Nat} : ∀ (ss : List Bytes) (k : Nat) (S : Session),
    SessionOK M n k S → (∀ s ∈ ss, TextInput M n s ∧ s.length < fuel) → M.orig + k + ss.flatten.length ≤ noSymbol →
    ∃ S', lookupMany M fuel ss S = .ok S' ∧ SessionOK M n (k + ss.flatten.length) S'
  | [], k, S, h, _, _ => ⟨S, rfl, h⟩
  | s :: ss, k, S, h, hs, hroom => by
    rw [List.flatten_cons, List.length_append] at hroom
    obtain ⟨h1, h2⟩ := hs s (List.mem_cons_self ..)
    obtain ⟨rs, S1, ks, e1, e2, _⟩ := text_spec hR hS hr hT h h1 h2 (by omega)
    obtain ⟨S2, f1, f2⟩ := many_spec hR hS hr hT ss _ S1 e2 (fun s hs' => hs s (List.mem_cons_of_mem _ hs')) (by omega)
    refine ⟨S2, ?_, ?_⟩
    · rw [lookupMany, e1, Outcome.bind]
      exact f1
    · rw [List.flatten_cons, List.length_append, ← Nat.add_assoc]
      exact f2

/-- **C39, lookup of strings, one after the other.**  However many strings were looked up before, a lookup ends, reads nothing outside the
tables, and returns the outputs of the analyses (by runs with fewer than 5000 transitions) of the symbols that the string is read as.
The room for symbol numbers must not run out. -/
theorem C39_strings_partial {M : Machine} {n : Inputs} {N : Net} {pos : Nat → Nat} (hR : Represents M n N pos)
    (hS : SymbolsOK M.kinds n N) (hr : NoFlagCycle M.kinds N pos) (hT : TextOK M n) (hlimit : M.limit < 0)
    {before : List Bytes} {s : Bytes} (hs : ∀ x ∈ s :: before, TextInput M n x) {fuel : Nat} (hf : ∀ x ∈ s :: before, x.length < fuel)
    (hroom : M.orig + before.flatten.length + s.length ≤ 65535) (tape : List Nat) (out : List (Nat × Nat)) :
    ∃ e S rs S' ks, Encoder.make M.alphabet.table n.count = .ok e ∧
      lookupMany M fuel before ⟨M.alphabet.table, e, tape, out, Flags.FdState.init M.fd.numFeatures⟩ = .ok S ∧
      lookupText M fuel s S = .ok (rs, S') ∧ M.alphabet.table <+: S.table ∧ Reads n.count M.orig S.table s (some ks) S'.table ∧
      ∀ o, o ∈ rs ↔ ∃ l r, l.length < 5000 ∧
        Analysis (M.withInput S'.table []).kinds N (Flags.FdState.init M.fd.numFeatures) ks l r ∧ o = (r.1, r.2.map (·.2)) := by
  have hn : n.count ≤ M.alphabet.table.length := by rw [hT.size]; exact hT.inputs
  obtain ⟨e, h1, h2⟩ := make_knows hn fun x hx => ⟨(hT.symbols x hx).1, (hT.symbols x hx).2.1⟩
  have h0 : SessionOK M n 0 ⟨M.alphabet.table, e, tape, out, Flags.FdState.init M.fd.numFeatures⟩ :=
    ⟨⟨[], by simp, h2, by simp, .inr rfl⟩, fun x hx => (hT.symbols x hx).2.2, rfl⟩
  have hroom' : M.orig + before.flatten.length + s.length ≤ noSymbol := hroom
  obtain ⟨S, h3, h4⟩ := many_spec hR hS hr hT before 0 _ h0
    (fun x hx => ⟨hs x (List.mem_cons_of_mem _ hx), hf x (List.mem_cons_of_mem _ hx)⟩) (by omega)
  obtain ⟨rs, S', ks, h5, _, h6, h7⟩ := text_spec hR hS hr hT h4 (hs s (List.mem_cons_self ..)) (hf s (List.mem_cons_self ..))
    (by omega)
  refine ⟨e, S, rs, S', ks, h1, h3, h5, ?_, h6, h7 hlimit⟩
  obtain ⟨⟨extra, h, _⟩, _, _⟩ := h4
  rw [h]
  exact List.prefix_append _ _

/-! ## Examples and what is not found -/

/-- The bytes of an ASCII string. -/
def asc (s : String) : Bytes := s.toList.map fun c => UInt8.ofNat c.toNat

/-- Two states: the first has a flag and `a` to the second, and identity to itself; the second is final and has `a` to itself. -/
def demoNet : Net where
  size := 2
  arcs
    | 0 => [⟨3, 3, 1, 0⟩, ⟨1, 1, 1, 2⟩, ⟨2, 2, 0, 1⟩]
    | 1 => [⟨1, 1, 1, 1⟩]
    | _ => []
  final
    | 1 => some 5
    | _ => none

/-- The tables of `demoNet`: the first state is in the index table, the second only in the transition table. -/
def demoMachine : Machine where
  indices := [⟨65535, 4294967295⟩, ⟨0, 2147483648⟩, ⟨1, 2147483649⟩, ⟨2, 2147483650⟩]
  transitions := [⟨3, 3, 2147483651, 0⟩, ⟨1, 1, 2147483651, 2⟩, ⟨2, 2, 0, 1⟩, ⟨65535, 65535, 1, 5⟩, ⟨1, 1, 2147483651, 1⟩,
    ⟨65535, 65535, 4294967295, 0⟩]
  alphabet := ⟨[asc "@_EPSILON_SYMBOL_@", asc "a", asc "@_IDENTITY_SYMBOL_@", asc "@P.X.1@"], 65535, 65535, 2⟩
  orig := 4
  fd := ⟨[("X".toList, 0)], [], [(3, ⟨.P, 0, 1⟩)], []⟩
  weighted := true
  weightOf n := n
  tape := []
  limit := -1

/-- Where the states of `demoNet` are. -/
def demoPos (q : Nat) : Nat := if q = 1 then 2147483651 else 0

/-- `demoMachine` with an input. -/
def demoWith (tape : List Nat) : Machine := demoMachine.withInput demoMachine.alphabet.table tape

theorem demo_flag {x : Nat} : demoMachine.kinds.Flag x ↔ x = 3 := by
  constructor
  · rintro ⟨o, ho⟩
    by_contra hne
    have : demoMachine.fd.getOperation x = none := by
      show List.lookup x [(3, _)] = none
      rw [List.lookup, beq_false_of_ne hne]
      rfl
    rw [show demoMachine.kinds.fd = demoMachine.fd from rfl, this] at ho
    cases ho
  · rintro rfl
    exact ⟨⟨.P, 0, 1⟩, by decide⟩

theorem demo_input {x : Nat} (h : IsInput demoMachine.kinds ⟨3, True⟩ x) : x = 1 ∨ x = 2 := by
  obtain ⟨h1, h2, _, h | h | ⟨_, h | h⟩⟩ := h
  · have h : x < 3 := h
    omega
  · exact absurd h h2
  · exact .inr h
  · exact absurd h h2

theorem mem_of_filter {α : Type} {l l' : List α} {p : α → Prop} [DecidablePred p] (h : l.filter (fun a => decide (p a)) = l') (a : α) :
    a ∈ l' ↔ a ∈ l ∧ p a := by
  rw [← h, List.mem_filter, decide_eq_true_iff]

theorem block_one {M : Machine} {pos : Nat → Nat} {i : Nat} {a : NArc} {t : Trans} {stop : Trans → Prop}
    (h1 : M.transitions[i]? = some t) (h2 : IsEntry M pos t a) (h3 : ∃ t, M.transitions[i + 1]? = some t ∧ stop t) :
    Block M pos i [a] stop := by
  refine ⟨?_, h3⟩
  intro k b h
  cases k with
  | zero => injection h with h; subst h; exact ⟨t, h1, h2⟩
  | succ k => simp at h

theorem demo_represents : Represents demoMachine ⟨3, True⟩ demoNet demoPos where
  nonempty := by decide
  closed := by
    intro q hq a ha
    have hq : q = 0 ∨ q = 1 := by have hq : q < 2 := hq; omega
    rcases hq with rfl | rfl <;> revert a <;> decide
  start := rfl
  indexSize := by decide
  transSize := by decide
  placed := by
    intro q hq
    have hq : q = 0 ∨ q = 1 := by have hq : q < 2 := hq; omega
    rcases hq with rfl | rfl
    · left
      refine ⟨by decide, ⟨⟨65535, 4294967295⟩, by decide, fun h => absurd h.2 (by decide)⟩, ?_, ?_⟩
      · refine ⟨⟨0, 2147483648⟩, by decide, .inr ⟨by decide, by decide, [⟨3, 3, 1, 0⟩], by simp, ?_, ?_⟩⟩
        · intro a
          unfold Kinds.Free
          rw [demo_flag]
          exact mem_of_filter (l := demoNet.arcs 0) (l' := [⟨3, 3, 1, 0⟩]) (p := fun a => a.input = 0 ∨ a.input = 3) (by decide) a
        · exact block_one (t := ⟨3, 3, 2147483651, 0⟩) (by decide) ⟨by decide, by decide, by decide, by decide⟩
            ⟨⟨1, 1, 2147483651, 2⟩, by decide, by decide, by rw [demo_flag]; decide⟩
      · intro x hx
        rcases demo_input hx with rfl | rfl
        · refine ⟨⟨1, 2147483649⟩, by decide, .inr ⟨by decide, by decide, [⟨1, 1, 1, 2⟩], by simp, ?_, ?_⟩⟩
          · exact mem_of_filter (l := demoNet.arcs 0) (p := fun a => a.input = 1) (by decide)
          · exact block_one (t := ⟨1, 1, 2147483651, 2⟩) (by decide) ⟨by decide, by decide, by decide, by decide⟩
              ⟨⟨2, 2, 0, 1⟩, by decide, by decide⟩
        · refine ⟨⟨2, 2147483650⟩, by decide, .inr ⟨by decide, by decide, [⟨2, 2, 0, 1⟩], by simp, ?_, ?_⟩⟩
          · exact mem_of_filter (l := demoNet.arcs 0) (p := fun a => a.input = 2) (by decide)
          · exact block_one (t := ⟨2, 2, 0, 1⟩) (by decide) ⟨by decide, by decide, by decide, by decide⟩
              ⟨⟨65535, 65535, 1, 5⟩, by decide, by decide⟩
    · right
      refine ⟨by decide, ⟨⟨65535, 65535, 1, 5⟩, by decide, ⟨by decide, by decide, by decide, by decide⟩⟩, ⟨[⟨1, 1, 1, 1⟩], fun a => Iff.rfl, ?_⟩, .inr ⟨1, ?_, ?_⟩⟩
      · exact block_one (t := ⟨1, 1, 2147483651, 1⟩) (by decide) ⟨by decide, by decide, by decide, by decide⟩
          ⟨⟨65535, 65535, 4294967295, 0⟩, by decide, by decide⟩
      · exact ⟨by decide, by decide, by rw [demo_flag]; decide, .inl (by decide)⟩
      · decide

theorem demo_symbols : SymbolsOK demoMachine.kinds ⟨3, True⟩ demoNet where
  small := by decide
  inputs := by decide
  none := by rw [demo_flag]; decide
  epsilon := by rw [demo_flag]; decide
  special := by
    intro x h1 h2
    have : x = 2 := by
      rcases h2 with h | h | h
      · exact h
      · exact absurd h h1
      · exact absurd h h1
    subst this
    exact ⟨by decide, by rw [demo_flag]; decide⟩
  features := by
    intro x o h
    have := demo_flag.mp ⟨o, h⟩
    subst this
    injection h with h
    subst h
    decide
  known := by
    intro q hq a ha
    have hq : q = 0 ∨ q = 1 := by have hq : q < 2 := hq; omega
    rcases hq with rfl | rfl <;> revert a <;> decide

theorem demo_cycle : NoFlagCycle demoMachine.kinds demoNet demoPos := by
  refine ⟨fun x => if x = 0 then 1 else 0, ?_⟩
  intro q hq
  have hq : q = 0 ∨ q = 1 := by have hq : q < 2 := hq; omega
  simp only [demo_flag]
  rcases hq with rfl | rfl <;> decide

theorem demo_text : TextOK demoMachine ⟨3, True⟩ where
  size := by decide
  nonempty := by decide
  inputs := by decide
  symbols := by
    have key : ∀ x : Bytes, (∀ c ∈ x, Utf8.nByteUtf8 c = 1) → Chars x := by
      intro x
      induction x with
      | nil => exact fun _ => .nil
      | cons c x ih =>
        intro h
        exact .char (x := []) (by rw [h c (List.mem_cons_self ..)]; rfl) (ih fun d hd => h d (List.mem_cons_of_mem _ hd))
    intro x hx
    have : ∀ x ∈ demoMachine.alphabet.table, x ≠ [] ∧ 0 ∉ x ∧ ∀ c ∈ x, Utf8.nByteUtf8 c = 1 := by decide +kernel
    obtain ⟨h1, h2, h3⟩ := this x hx
    exact ⟨h1, h2, key x h3⟩
  flags := by
    intro x h
    rw [demo_flag] at h
    subst h
    decide

/-- The input `ä a` is read as an unknown symbol and `a`; there are two analyses. -/
example : lookupPairs (demoMachine.withInput (demoMachine.alphabet.table ++ [[195, 164]]) [4, 1, 65535]) (.init 1) [] =
      .ok [(8, [(asc "@_IDENTITY_SYMBOL_@", [195, 164]), (asc "a", asc "a")]),
           (7, [(asc "@_IDENTITY_SYMBOL_@", [195, 164]), (asc "@P.X.1@", asc "@P.X.1@"), (asc "a", asc "a")])] := by
  decide +kernel

theorem demo_with (tape : List Nat) : Represents (demoWith tape) ⟨3, True⟩ demoNet demoPos ∧ SymbolsOK (demoWith tape).kinds ⟨3, True⟩ demoNet ∧
    NoFlagCycle (demoWith tape).kinds demoNet demoPos :=
  ⟨represents_with demo_represents _ _, symbols_with demo_symbols _ (Nat.le_refl _) (by decide), demo_cycle⟩

theorem demo_tape {tape ks : List Nat} (h : ∀ x ∈ ks, x = 1) : TapeOK (demoWith tape).kinds ⟨3, True⟩ ks := by
  intro x hx
  rw [h x hx]
  exact ⟨by decide, fun h => absurd (demo_flag.mp h) (by decide), .inl (by decide), show 1 < demoMachine.alphabet.table.length by decide⟩

/-- The hypotheses of the theorems hold for `demoMachine`. -/
example : ∃ rs, lookupPairs (demoWith [1, 1, 65535]) (.init 1) [] = .ok rs ∧
    ∀ r, r ∈ rs ↔ ∃ l, l.length < 5000 ∧ Analysis (demoWith [1, 1, 65535]).kinds demoNet (.init 1) [1, 1] l r :=
  C39_lookup_partial (ks := [1, 1]) (rest := []) (demo_with _).1 (demo_with _).2.1 (demo_with _).2.2 (demo_tape (by simp)) rfl rfl _
    (by decide)

/-- The same with the bound on the runs: there are no cycles without input. -/
example : ∃ rs, lookupPairs (demoWith [1, 1, 65535]) (.init 1) [] = .ok rs ∧
    ∀ r, r ∈ rs ↔ ∃ l, Analysis (demoWith [1, 1, 65535]).kinds demoNet (.init 1) [1, 1] l r := by
  refine C39_lookup (ks := [1, 1]) (rest := []) (demo_with _).1 (demo_with _).2.1 (demo_tape (by simp)) rfl rfl _
    (by decide) (rank := fun q => if q = 0 then 1 else 0) (R := 2) (fun q => by split <;> omega) ?_ ?_ (by decide)
  · intro q hq q' hq' h
    have hq : q = 0 ∨ q = 1 := by have hq : q < 2 := hq; omega
    have hq' : q' = 0 ∨ q' = 1 := by have hq' : q' < 2 := hq'; omega
    rcases hq with rfl | rfl <;> rcases hq' with rfl | rfl
    · rfl
    · exact absurd h (by decide)
    · exact absurd h (by decide)
    · rfl
  · intro q a ha hf
    have hf : a.input = 0 ∨ a.input = 3 := hf.imp id demo_flag.mp
    have h0 : ∀ a ∈ demoNet.arcs 0, a.input = 0 ∨ a.input = 3 → (if a.target = 0 then 1 else 0) < 1 := by decide
    have h1 : ∀ a ∈ demoNet.arcs 1, ¬ (a.input = 0 ∨ a.input = 3) := by decide
    match q, ha with
    | 0, ha => exact h0 a ha hf
    | 1, ha => exact absurd hf (h1 a ha)
    | q + 2, ha => cases ha

/-- A lookup of `a` after a lookup of `ä`. -/
example : ∃ e S rs S' ks, Encoder.make demoMachine.alphabet.table 3 = .ok e ∧
      lookupMany demoMachine 10 [[195, 164]] ⟨demoMachine.alphabet.table, e, [], [], .init 1⟩ = .ok S ∧
      lookupText demoMachine 10 [97] S = .ok (rs, S') ∧ demoMachine.alphabet.table <+: S.table ∧
      Reads 3 4 S.table [97] (some ks) S'.table ∧
      ∀ o, o ∈ rs ↔ ∃ l r, l.length < 5000 ∧
        Analysis (demoMachine.withInput S'.table []).kinds demoNet (.init 1) ks l r ∧ o = (r.1, r.2.map (·.2)) := by
  refine C39_strings_partial demo_represents demo_symbols demo_cycle demo_text (by decide) (before := [[195, 164]]) ?_ ?_ (by decide) [] []
  · intro x hx
    have hno : ∀ y, demoMachine.alphabet.table[0]? = some y → ¬ y <:+: x := by
      intro y hy h
      have := h.length_le
      injection hy with hy
      subst hy
      have h18 : (asc "@_EPSILON_SYMBOL_@").length = 18 := by decide
      rw [h18] at this
      rcases List.mem_cons.mp hx with rfl | hx
      · simp at this
      · rw [List.mem_singleton.mp hx] at this
        simp at this
    rcases List.mem_cons.mp hx with rfl | hx
    · exact ⟨by decide, .char (c := 97) (x := []) (by decide) .nil, hno, .inl trivial⟩
    · rw [List.mem_singleton.mp hx] at hno ⊢
      exact ⟨by decide, .char (c := 195) (x := [164]) (by decide) .nil, hno, .inl trivial⟩
  · decide

theorem demo_direct (tape : List Nat) (w : Int) : (demoWith tape).kinds.Direct 1 ⟨1, 1, 1, w⟩ := by
  unfold Kinds.Direct
  exact (if_pos (show 1 < (demoWith tape).kinds.orig from (show 1 < 4 by decide))).mpr rfl

theorem demo_run (tape : List Nat) : ∀ k, NRun (demoWith tape).kinds demoNet 1 (List.replicate k (⟨1, 1, 1, 1⟩, some 1)) 1
  | 0 => .nil
  | k + 1 => .cons (by decide) (.inl (demo_direct tape 1)) (demo_run tape k)

/-- `demoNet` accepts any number of `a`s. -/
theorem demo_long (tape : List Nat) (k : Nat) :
    ∃ r, Analysis (demoWith tape).kinds demoNet (.init 1) (List.replicate (k + 1) 1)
      ((⟨1, 1, 1, 2⟩, some 1) :: List.replicate k (⟨1, 1, 1, 1⟩, some 1)) r := by
  have hread : ∀ k, readBy (List.replicate k ((⟨1, 1, 1, 1⟩ : NArc), some 1)) = List.replicate k 1 := by
    intro k
    induction k with
    | zero => rfl
    | succ k ih => rw [List.replicate_succ, List.replicate_succ, ← ih]; rfl
  have hpass : ∀ k, (demoWith tape).kinds.fd.passes (.init 1) (List.replicate k 1) = some true := by
    intro k
    induction k with
    | zero => rfl
    | succ k ih => rw [List.replicate_succ, ← ih]; rfl
  have hwrite : ∃ o, tapeStrings (demoWith tape).kinds.al
      ((((⟨1, 1, 1, 2⟩ : NArc), some 1) :: List.replicate k ((⟨1, 1, 1, 1⟩ : NArc), some 1)).map (demoWith tape).kinds.shown) =
        some o := by
    apply strings_some
    intro x hx
    obtain ⟨y, hy, rfl⟩ := List.mem_map.mp hx
    have h4 : 1 < demoMachine.alphabet.table.length := by decide
    rcases List.mem_cons.mp hy with rfl | hy
    · exact ⟨h4, h4⟩
    · rw [List.eq_of_mem_replicate hy]
      exact ⟨h4, h4⟩
  obtain ⟨o, ho⟩ := hwrite
  refine ⟨(weightBy ((⟨1, 1, 1, 2⟩, some 1) :: List.replicate k (⟨1, 1, 1, 1⟩, some 1)) + 5, o), 1, 5,
    .cons (by decide) (.inl (demo_direct tape 2)) (demo_run _ k), rfl, ?_, ?_, rfl, ho⟩
  · show 1 :: readBy _ = _
    rw [hread, ← List.replicate_succ]
  · rw [List.map_cons, List.map_replicate]
    exact hpass (k + 1)

/-- **C39 is violated for long inputs**: with 5000 symbols or more the search gives up everywhere and finds nothing, although the
transducer accepts the input. -/
theorem C39_depth_violated : ∃ (M : Machine) (n : Inputs) (N : Net) (pos : Nat → Nat) (ks : List Nat) (st : Flags.FdState)
    (l : List (NArc × Option Nat)) (r : TwoLevel), Represents M n N pos ∧ SymbolsOK M.kinds n N ∧ NoFlagCycle M.kinds N pos ∧
      TapeOK M.kinds n ks ∧ M.tape = ks ++ [noSymbol] ∧ M.limit < 0 ∧ Analysis M.kinds N st ks l r ∧
      lookupPairs M st [] = .ok [] := by
  have hK : TapeOK (demoWith (List.replicate 5000 1 ++ [noSymbol])).kinds ⟨3, True⟩ (List.replicate 5000 1) :=
    demo_tape fun x hx => List.eq_of_mem_replicate hx
  have hW := demo_with (List.replicate 5000 1 ++ [noSymbol])
  obtain ⟨rs, h1, h2⟩ := C39_lookup_partial (rest := []) hW.1 hW.2.1 hW.2.2 hK rfl (st := .init 1) rfl [] (by decide)
  obtain ⟨r, hr⟩ := demo_long (List.replicate 5000 1 ++ [noSymbol]) 4999
  refine ⟨demoWith (List.replicate 5000 1 ++ [noSymbol]), ⟨3, True⟩, demoNet, demoPos, List.replicate 5000 1, .init 1,
    (⟨1, 1, 1, 2⟩, some 1) :: List.replicate 4999 (⟨1, 1, 1, 1⟩, some 1), r,
    hW.1, hW.2.1, hW.2.2, hK, rfl, by decide, hr, ?_⟩
  have : rs = [] := by
    apply List.eq_nil_iff_forall_not_mem.mpr
    intro r hr
    obtain ⟨l, hl, q, w, _, _, hk, _⟩ := (h2 r).mp hr
    have : (readBy l).length ≤ l.length := List.length_filterMap_le _ _
    rw [hk, List.length_replicate] at this
    omega
  rw [h1, this]

/-- The transitions `@P.X.1@` from 0 to 1, `@R.X.1@` from 1 to 2, `@C.X@` from 2 to 3, `@P.X.2@` from 3 to 1, and `@R.X.2@` from 1 to the
final state 4. -/
def flagNet : Net where
  size := 5
  arcs
    | 0 => [⟨1, 1, 1, 0⟩]
    | 1 => [⟨2, 2, 2, 0⟩, ⟨5, 5, 4, 0⟩]
    | 2 => [⟨3, 3, 3, 0⟩]
    | 3 => [⟨4, 4, 1, 0⟩]
    | _ => []
  final
    | 4 => some 0
    | _ => none

/-- The tables of `flagNet`. -/
def flagMachine : Machine where
  indices := [⟨65535, 4294967295⟩, ⟨0, 2147483648⟩]
  transitions := [⟨1, 1, 2147483649, 0⟩, ⟨65535, 65535, 4294967295, 0⟩, ⟨2, 2, 2147483652, 0⟩, ⟨5, 5, 2147483656, 0⟩,
    ⟨65535, 65535, 4294967295, 0⟩, ⟨3, 3, 2147483654, 0⟩, ⟨65535, 65535, 4294967295, 0⟩, ⟨4, 4, 2147483649, 0⟩,
    ⟨65535, 65535, 1, 0⟩, ⟨65535, 65535, 4294967295, 0⟩]
  alphabet := ⟨[asc "@_EPSILON_SYMBOL_@", asc "@P.X.1@", asc "@R.X.1@", asc "@C.X@", asc "@P.X.2@", asc "@R.X.2@"],
    65535, 65535, 65535⟩
  orig := 6
  fd := ⟨[("X".toList, 0)], [], [(1, ⟨.P, 0, 1⟩), (2, ⟨.R, 0, 1⟩), (3, ⟨.C, 0, 0⟩), (4, ⟨.P, 0, 2⟩), (5, ⟨.R, 0, 2⟩)], []⟩
  weighted := true
  weightOf n := n
  tape := [65535]
  limit := -1

/-- Where the states of `flagNet` are. -/
def flagPos (q : Nat) : Nat := if q = 0 then 0 else [2147483648, 2147483649, 2147483652, 2147483654, 2147483656].getD q 0

/-- **C39 is violated for cycles of flags**: a run that comes to a state twice with different flags is not found, if the transitions to
the state were taken with the same flags. -/
theorem C39_flags_violated : ∃ l r, Analysis flagMachine.kinds flagNet (.init 1) [] l r ∧ l.length = 5 ∧
    lookupPairs flagMachine (.init 1) [] = .ok [] := by
  have hfree : ∀ x, 0 < x → x < 6 → flagMachine.kinds.Flag x := by
    intro x h1 h2
    have : x = 1 ∨ x = 2 ∨ x = 3 ∨ x = 4 ∨ x = 5 := by omega
    rcases this with rfl | rfl | rfl | rfl | rfl <;> exact ⟨_, rfl⟩
  refine ⟨[(⟨1, 1, 1, 0⟩, none), (⟨2, 2, 2, 0⟩, none), (⟨3, 3, 3, 0⟩, none), (⟨4, 4, 1, 0⟩, none), (⟨5, 5, 4, 0⟩, none)],
    (0, [(asc "@P.X.1@", asc "@P.X.1@"), (asc "@R.X.1@", asc "@R.X.1@"), (asc "@C.X@", asc "@C.X@"),
      (asc "@P.X.2@", asc "@P.X.2@"), (asc "@R.X.2@", asc "@R.X.2@")]), ⟨4, 0, ?_, rfl, rfl, by decide, by decide,
      by decide +kernel⟩, rfl, by decide +kernel⟩
  refine .cons (by decide) (.inr (hfree 1 (by decide) (by decide))) (.cons (by decide) (.inr (hfree 2 (by decide) (by decide)))
    (.cons (by decide) (.inr (hfree 3 (by decide) (by decide))) (.cons (by decide) (.inr (hfree 4 (by decide) (by decide)))
    (.cons (by decide) (.inr (hfree 5 (by decide) (by decide))) .nil))))

end Hfst.Ol
