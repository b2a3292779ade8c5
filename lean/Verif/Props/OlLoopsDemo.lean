import Verif.Props.OlLoopsGraph

/-!
# Examples and counterexamples for the search for loops
-/
namespace Hfst.Ol
open Hfst.Basic

/-- A graph with a cycle of epsilons that is reached by `a` but not by the empty string, and a state that is not reached. -/
def loopGraph : Graph where
  states := [[⟨1, "a".toList, "b".toList, 1⟩, ⟨3, "b".toList, "b".toList, 1⟩], [⟨2, epsilon, "b".toList, 1⟩], [⟨1, epsilon, "a".toList, 0⟩],
    [⟨3, "a".toList, epsilon, 0⟩, ⟨0, identity, identity, 1⟩]]
  finals := [(1, 4)]
  alphabet := [epsilon, unknown, identity, "a".toList, "b".toList]

theorem loop_arcs : ∀ q, ∀ a ∈ loopGraph.arcs q, a.target < loopGraph.states.length ∧ ((∀ c ∈ a.inp, c.toNat < 256) ∧ ∀ c ∈ a.out, c.toNat < 256) ∧
    isInsertion a.inp = false ∧ Flags.isDiacritic a.inp = false ∧ a.inp ≠ defaultSym ∧ a.out ≠ defaultSym :=
  all_arcs (p := fun _ a => a.target < loopGraph.states.length ∧ ((∀ c ∈ a.inp, c.toNat < 256) ∧ ∀ c ∈ a.out, c.toNat < 256) ∧
    isInsertion a.inp = false ∧ Flags.isDiacritic a.inp = false ∧ a.inp ≠ defaultSym ∧ a.out ≠ defaultSym) (by decide +kernel)

theorem loop_answers (input : List Sym) (h : ∀ x ∈ input, x = "a".toList ∨ x = "b".toList) :
    (∀ fuel, infinitelyAmbiguous ((madeFor loopGraph).reading smallWeight (-1) input) fuel (.init 0) = .ok true → LoopsOn loopGraph input) ∧
    (∀ fuel, infinitelyAmbiguous ((madeFor loopGraph).reading smallWeight (-1) input) fuel (.init 0) = .ok false → ¬ LoopsOn loopGraph input) ∧
    (¬ LoopsOn loopGraph input → ∀ fuel, loopGraph.states.length * (input.length + 1) ≤ fuel →
      infinitelyAmbiguous ((madeFor loopGraph).reading smallWeight (-1) input) fuel (.init 0) = .ok false) :=
  C41_partial symOrder symOrder_perm full85_zero (weights_of (g := loopGraph) (by decide +kernel) (by decide +kernel))
    ⟨by decide, fun q a ha => (loop_arcs q a ha).1, fun s _ h => (by decide : ∀ x ∈ loopGraph.finals, x.1 < loopGraph.states.length) _ (mapGet_mem h)⟩
    ⟨by unfold ByteSym; decide +kernel, fun q a ha => (loop_arcs q a ha).2.1⟩ (fun q a ha => (loop_arcs q a ha).2.2.1)
    (fun q a ha => (loop_arcs q a ha).2.2.2.1) ⟨by decide +kernel, fun q a ha => (loop_arcs q a ha).2.2.2.2⟩ (made_for (by decide +kernel))
    (by decide +kernel) (by decide +kernel) (-1) (input := input)
    (fun x hx => ⟨by rcases h x hx with rfl | rfl <;> decide,
      by rcases h x hx with rfl | rfl <;> exact ⟨0, by decide +kernel⟩⟩) (.init 0)

/-- `loopGraph` has infinitely many analyses of `a`, and finitely many of `ba`. -/
example : LoopsOn loopGraph ["a".toList] ∧ ¬ LoopsOn loopGraph ["b".toList, "a".toList] :=
  ⟨(loop_answers ["a".toList] (by simp)).1 5 (by decide +kernel), (loop_answers ["b".toList, "a".toList] (by simp)).2.1 5 (by decide +kernel)⟩

/-! ## The search does not always end -/

/-- A cycle of an epsilon at the start, and a way to read `a`. -/
def endlessGraph : Graph where
  states := [[⟨1, epsilon, epsilon, 1⟩, ⟨0, epsilon, epsilon, 1⟩], [⟨2, "a".toList, "a".toList, 1⟩], []]
  finals := [(2, 4)]
  alphabet := [epsilon, unknown, identity, "a".toList]

/-- The transducer for `endlessGraph` with `a` on the tape. -/
abbrev endless : Machine := (madeFor endlessGraph).reading smallWeight (-1) ["a".toList]

theorem endless_tables : (endless.indices[1]?.map fun e => (e.input, e.target)) = some (0, 2147483648) ∧
    (endless.transitions.map fun t => (t.input, t.target)) = [(0, 2147483650), (0, 0), (65535, 4294967295), (1, 2147483652), (65535, 1),
      (65535, 4294967295)] ∧ (endless.indices[2]?.map fun e => e.input) = some 65535 ∧
    endless.tape = [1, 65535] ∧ endless.fd.getOperation 65535 = none ∧ endless.fd.getOperation 1 = none ∧ endless.alphabet.default = 65535 := by
  decide +kernel

theorem endless_get {i : Nat} {x : Nat × Nat} (hi : i < targetStart) (h : [(0, 2147483650), (0, 0), (65535, 4294967295), (1, 2147483652), (65535, 1),
      (65535, 4294967295)][i]? = some x) :
    ∃ t, tableGet endless.transitions i = some t ∧ t.input = x.1 ∧ t.target = x.2 := by
  rw [← endless_tables.2.1, List.getElem?_map] at h
  cases ht : endless.transitions[i]? with
  | none => rw [ht] at h; cases h
  | some t =>
    rw [ht] at h
    injection h with h
    subst h
    exact ⟨t, by rw [tableGet, if_pos hi, ht], rfl, rfl⟩

theorem endless_length : endless.transitions.length = 6 := by
  rw [← List.length_map (f := fun t : Trans => (t.input, t.target)), endless_tables.2.1]; rfl

/-- Nothing happens at the end of the input. -/
theorem endless_two (d : Nat) (s : LoopState) : findLoop endless d 1 2147483652 s = .undefined ∨
    findLoop endless d 1 2147483652 s = .ok { s with found := false } := by
  cases d with
  | zero => exact .inl rfl
  | succ d =>
    obtain ⟨_, _, _, h5, h6, _, _⟩ := endless_tables
    obtain ⟨t, g1, g2, g3⟩ := endless_get (i := 5) (by decide) rfl
    right
    simp [findLoop, h5, targetStart, loopVisit, loopEpsilonTransitions, g1, g2, h6, noSymbol, Outcome.bind]

/-- Reading `a` clears the set. -/
theorem endless_one (d : Nat) (s : LoopState) : findLoop endless d 0 2147483650 s = .undefined ∨
    findLoop endless d 0 2147483650 s = .ok { s with seen := [], found := true } := by
  cases d with
  | zero => exact .inl rfl
  | succ d =>
    obtain ⟨_, _, _, h5, h6, h7, h8⟩ := endless_tables
    obtain ⟨t, g1, g2, g3⟩ := endless_get (i := 3) (by decide) rfl
    obtain ⟨u, f1, f2, f3⟩ := endless_get (i := 4) (by decide) rfl
    rcases endless_two d { s with seen := [], found := false } with h | h
    · left
      simp [findLoop, h5, targetStart, loopVisit, loopEpsilonTransitions, g1, g2, g3, h7, noSymbol, Outcome.bind, loopTransitions, h]
    · right
      simp [findLoop, h5, targetStart, loopVisit, loopEpsilonTransitions, g1, g2, g3, h7, noSymbol, Outcome.bind, loopTransitions, h, endless_length, f1, f2]

theorem eps_step {M : Machine} {call : LoopCall} {ip n i : Nat} {s : LoopState} {t : Trans} (h1 : tableGet M.transitions i = some t) (h2 : t.input = 0)
    (h3 : (t.target, s.flags.values) ∉ s.seen) : loopEpsilonTransitions M call ip (n + 1) i s =
      (call ip t.target { s with seen := setInsert s.seen (t.target, s.flags.values) }).bind fun s' =>
        loopEpsilonTransitions M call ip n (i + 1) { s' with seen := setErase s'.seen (t.target, s.flags.values), found := true } := by
  rw [loopEpsilonTransitions]
  simp only [h1, h2, h3, if_true, if_false]

theorem endless_zero (d : Nat) (s : LoopState) (h : ∀ v, (2147483650, v) ∉ s.seen) : findLoop endless d 0 0 s = .undefined := by
  induction d generalizing s with
  | zero => rfl
  | succ d ih =>
    obtain ⟨h1, _, h4, h5, h6, h7, h8⟩ := endless_tables
    obtain ⟨t, g1, g2, g3⟩ := endless_get (i := 0) (by decide) rfl
    obtain ⟨u, f1, f2, f3⟩ := endless_get (i := 1) (by decide) rfl
    obtain ⟨e, he, hh⟩ := Option.map_eq_some_iff.mp h1
    injection hh with e1 e2
    have he' : tableGet endless.indices (0 + 1) = some e := by rw [tableGet, if_pos (by decide), he]
    have key : loopEpsilonTransitions endless (findLoop endless d) 0 (5 + 1 + 1) 0 { s with found := false } = .undefined := by
      rw [eps_step g1 g2 (by rw [g3]; exact h _), g3]
      rcases endless_one d ⟨s.flags, setInsert s.seen (2147483650, s.flags.values), false⟩ with hx | hx
      · rw [hx]; rfl
      · rw [hx]
        show loopEpsilonTransitions endless (findLoop endless d) 0 (5 + 1) 1 ⟨s.flags, [], true⟩ = .undefined
        rw [eps_step f1 f2 (List.not_mem_nil), f3, ih]
        · rfl
        · intro v hv
          rw [mem_setInsert] at hv
          rcases hv with hv | hv
          · exact absurd (congrArg Prod.fst hv) (by decide : (2147483650 : Nat) ≠ 0)
          · cases hv
    rw [findLoop, h5]
    show (if targetStart ≤ 0 then _ else _) = _
    rw [if_neg (by decide), loopVisit, loopEpsilonIndices, he']
    show (if e.input = 0 then _ else _ : Outcome LoopState).bind _ = _
    rw [if_pos e1, e2, show 2147483648 - targetStart = 0 from by decide, endless_length, key]
    rfl

/-- **C41 does not hold** for some inputs with infinitely many analyses: the search never ends.  The transducer is made from a graph
without flags, and the input is an input symbol of the graph. -/
theorem C41_endless_violated : ∃ (g : Graph) (C : Converted) (input : List Sym), convert symOrder full85 smallBits g = .ok C ∧ WF g ∧ AlphaOK g ∧ NoFlags g ∧
    (∀ x ∈ input, x ≠ Basic.epsilon ∧ ∃ q, ∃ a ∈ g.arcs q, a.inp = x) ∧ LoopsOn g input ∧
    ∀ fuel st, infinitelyAmbiguous (C.reading smallWeight (-1) input) fuel st = .undefined := by
  refine ⟨endlessGraph, madeFor endlessGraph, ["a".toList], made_for (by decide +kernel), ?_, ?_, ?_, ?_, ?_, ?_⟩
  · refine ⟨by decide, all_arcs (p := fun _ a => a.target < endlessGraph.states.length) (by decide +kernel), ?_⟩
    intro s w h
    exact (by decide : ∀ x ∈ endlessGraph.finals, x.1 < endlessGraph.states.length) _ (mapGet_mem h)
  · exact ⟨all_arcs (p := fun _ a => a.inp ∈ endlessGraph.alphabet ∧ a.out ∈ endlessGraph.alphabet) (by decide +kernel), by decide, by decide, by decide⟩
  · exact all_arcs (p := fun _ a => Flags.isDiacritic a.inp = false) (by decide +kernel)
  · intro x hx
    rw [List.mem_singleton] at hx
    subst hx
    exact ⟨by decide, 1, by decide +kernel⟩
  · exact ⟨[], [⟨0, epsilon, epsilon, 1⟩], 0, .nil, List.nil_prefix, .cons (by decide +kernel) .nil, by simp, by decide +kernel⟩
  · intro fuel st
    have := endless_zero fuel ⟨st, [], false⟩ (by simp)
    unfold infinitelyAmbiguous
    rw [this]

/-! ## Flags -/

/-- The only cycle sets `X` to `B` and requires that it is `A`. -/
def flagLoop : Graph where
  states := [[⟨1, "@P.X.A@".toList, "@P.X.A@".toList, 1⟩], [⟨3, "@R.X.A@".toList, "@R.X.A@".toList, 1⟩],
    [⟨1, "@P.X.B@".toList, "@P.X.B@".toList, 1⟩], [⟨2, "@C.X@".toList, "@C.X@".toList, 1⟩]]
  finals := [(1, 4)]
  alphabet := [epsilon, unknown, identity, "@P.X.A@".toList, "@R.X.A@".toList, "@P.X.B@".toList, "@C.X@".toList]

theorem passes_prefix {K : Kinds} : ∀ {xs ys : List Nat} {st : Flags.FdState}, K.fd.passes st (xs ++ ys) = some true → K.fd.passes st xs = some true
  | [], _, _, _ => rfl
  | x :: xs, ys, st, h => by
    have h : (match st.applySymbol K.fd x with
      | none => none
      | some (true, st') => K.fd.passes st' (xs ++ ys)
      | some (false, _) => some false) = some true := h
    show (match st.applySymbol K.fd x with
      | none => none
      | some (true, st') => K.fd.passes st' xs
      | some (false, _) => some false) = some true
    split at h
    · cases h
    · exact passes_prefix h
    · cases h

/-- The symbols on the only path from a state. -/
def onlyPath (N : Net) : Nat → Nat → List Nat
  | _, 0 => []
  | q, n + 1 => match N.arcs q with
    | [] => []
    | a :: _ => a.input :: onlyPath N a.target n

theorem only_run {K : Kinds} {N : Net} (h1 : ∀ q, (N.arcs q).length ≤ 1) : ∀ {l : List (NArc × Option Nat)} {q r : Nat}, NRun K N q l r →
    l.map (·.1.input) = onlyPath N q l.length
  | [], _, _, _ => rfl
  | (a, c) :: l, q, r, h => by
    cases h with
    | cons ha _ hl =>
      have := h1 q
      rw [List.length_cons, List.map_cons, only_run h1 hl, onlyPath]
      cases hq : N.arcs q with
      | nil => rw [hq] at ha; cases ha
      | cons b m =>
        rw [hq, List.length_cons] at this
        have hm : m = [] := List.length_eq_zero_iff.mp (by omega)
        subst hm
        rw [hq, List.mem_singleton] at ha
        subst ha
        rfl

theorem only_take (N : Net) : ∀ (q n m : Nat), onlyPath N q n <+: onlyPath N q (n + m)
  | _, 0, _ => List.nil_prefix
  | q, n + 1, m => by
    rw [Nat.add_right_comm, onlyPath, onlyPath]
    cases N.arcs q with
    | nil => exact List.prefix_rfl
    | cons a _ => exact List.cons_prefix_cons.mpr ⟨rfl, only_take N _ _ _⟩

/-- **C41 does not hold** with flags: the answer is that there are infinitely many analyses of the empty string, although the flags do not
allow to go through the cycle. -/
theorem C41_flags_violated : ∃ (g : Graph) (C : Converted), convert symOrder full85 smallBits g = .ok C ∧ WF g ∧ AlphaOK g ∧
    ¬ Repeats (C.reading smallWeight (-1) []).kinds (netOf C.table g) (.init C.fd.numFeatures) [] ∧
    infinitelyAmbiguous (C.reading smallWeight (-1) []) 10 (.init C.fd.numFeatures) = .ok true := by
  refine ⟨flagLoop, madeFor flagLoop, made_for (by decide +kernel), ?_, ?_, ?_, by decide +kernel⟩
  · refine ⟨by decide, all_arcs (p := fun _ a => a.target < flagLoop.states.length) (by decide +kernel), ?_⟩
    intro s w h
    exact (by decide : ∀ x ∈ flagLoop.finals, x.1 < flagLoop.states.length) _ (mapGet_mem h)
  · exact ⟨all_arcs (p := fun _ a => a.inp ∈ flagLoop.alphabet ∧ a.out ∈ flagLoop.alphabet) (by decide +kernel), by decide, by decide, by decide⟩
  · rintro ⟨l, c, q, h1, _, h3, h4, _, h6⟩
    have hone : ∀ q, ((netOf (madeFor flagLoop).table flagLoop).arcs q).length ≤ 1 := by
      intro q
      show ((flagLoop.arcs q).map _).length ≤ 1
      rw [List.length_map]
      match q with
      | 0 | 1 | 2 | 3 => decide
      | n + 4 => exact Nat.zero_le _
    have h7 := h6 5
    rw [only_run hone (h1.append (repeat_run h3 5))] at h7
    have hlen : 5 ≤ (l ++ (List.replicate 5 c).flatten).length := by
      rw [List.length_append, List.length_flatten, List.map_replicate, List.sum_replicate_nat]
      have := List.length_pos_iff.mpr h4
      omega
    obtain ⟨k, hk⟩ := Nat.exists_eq_add_of_le hlen
    rw [hk] at h7
    obtain ⟨y, hy⟩ := only_take (netOf (madeFor flagLoop).table flagLoop) 0 5 k
    rw [← hy] at h7
    exact absurd (passes_prefix h7) (by decide +kernel)

/-! ## Symbols that are not known -/

/-- `a`, any symbol, and an epsilon cycle that writes `a`s. -/
def otherGraph : Graph where
  states := [[⟨1, "a".toList, "a".toList, 1⟩], [⟨2, identity, identity, 0⟩], [⟨2, epsilon, "a".toList, 0⟩]]
  finals := [(2, 4)]
  alphabet := [epsilon, unknown, identity, "a".toList]

/-- The question about a string, just after the conversion. -/
def firstAsked (C : Converted) (fuel : Nat) (s : Bytes) : Outcome Bool :=
  (Encoder.make (C.table.map asBytes) C.seen).bind fun e =>
    infinitelyAmbiguousText (C.machine smallWeight (-1)) fuel s ⟨C.table.map asBytes, e, [], [], Flags.FdState.init C.fd.numFeatures⟩

/-- **C41 does not hold** with symbols that are not known: the answer for `az` is that there are finitely many analyses, although the
identity symbol reads `z` (which gets the number of the end of the table) and after that there is a cycle. -/
theorem C41_unknown_violated : ∃ (g : Graph) (C : Converted), convert symOrder full85 smallBits g = .ok C ∧ WF g ∧ AlphaOK g ∧
    Repeats (C.machine smallWeight (-1)).kinds (netOf C.table g) (.init C.fd.numFeatures) [C.table.idxOf "a".toList, C.table.length] ∧
    firstAsked C 10 (asBytes "az".toList) = .ok false := by
  refine ⟨otherGraph, madeFor otherGraph, made_for (by decide +kernel), ?_, ?_, ?_, by decide +kernel⟩
  · refine ⟨by decide, all_arcs (p := fun _ a => a.target < otherGraph.states.length) (by decide +kernel), ?_⟩
    intro s w h
    exact (by decide : ∀ x ∈ otherGraph.finals, x.1 < otherGraph.states.length) _ (mapGet_mem h)
  · exact ⟨all_arcs (p := fun _ a => a.inp ∈ otherGraph.alphabet ∧ a.out ∈ otherGraph.alphabet) (by decide +kernel), by decide, by decide, by decide⟩
  · have hp : ∀ n, ((madeFor otherGraph).machine smallWeight (-1)).fd.passes (.init (madeFor otherGraph).fd.numFeatures) ([2, 1] ++ List.replicate n 0) = some true := by
      intro n
      refine passes_plain (K := ((madeFor otherGraph).machine smallWeight (-1)).kinds) _ ?_
      rintro x hx ⟨o, ho⟩
      have : ((madeFor otherGraph).machine smallWeight (-1)).kinds.fd.getOperation 2 = none ∧ ((madeFor otherGraph).machine smallWeight (-1)).kinds.fd.getOperation 1 = none ∧
        ((madeFor otherGraph).machine smallWeight (-1)).kinds.fd.getOperation 0 = none := by decide +kernel
      simp only [List.mem_append, List.mem_cons, List.not_mem_nil, or_false, List.mem_replicate] at hx
      rcases hx with (rfl | rfl) | ⟨_, rfl⟩
      · rw [this.1] at ho; cases ho
      · rw [this.2.1] at ho; cases ho
      · rw [this.2.2] at ho; cases ho
    refine ⟨[(⟨2, 2, 1, 1⟩, some 2), (⟨1, 1, 2, 0⟩, some 4)], [(⟨0, 2, 2, 0⟩, none)], 2, .cons (by decide +kernel) (.inl ?_) (.cons (by decide +kernel) (.inl ?_) .nil),
      by decide +kernel, .cons (by decide +kernel) (.inl rfl) .nil, by simp, rfl, fun n => ?_⟩
    · unfold Kinds.Direct; decide +kernel
    · unfold Kinds.Direct; decide +kernel
    · rw [List.map_append, List.map_flatten, List.map_replicate]
      have : (List.replicate n (List.map (fun x : NArc × Option Nat => x.1.input) [(⟨0, 2, 2, 0⟩, none)])).flatten = List.replicate n 0 := by
        induction n with
        | zero => rfl
        | succ n ih => rw [List.replicate_succ, List.flatten_cons, ih]; rfl
      rw [this]
      exact hp n

end Hfst.Ol
