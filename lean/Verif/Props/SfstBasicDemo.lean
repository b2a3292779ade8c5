import Verif.Props.SfstBasic

/-!
# C87: where conversion goes wrong, and examples
-/
namespace Hfst.Sfst
open Hfst.Basic (Outcome Sym)

/-! ## A numbering of symbols -/

/-- A number for each string. -/
def encSym : Sym → Nat
  | [] => 0
  | c :: w => (c.toNat + 1) + 1114113 * encSym w

theorem char_lt (c : Char) : c.toNat < 1114112 := by
  have := c.valid
  unfold UInt32.isValidChar Nat.isValidChar at this
  show c.val.toNat < _
  omega

theorem encSym_inj (x y : Sym) : encSym x = encSym y → x = y := by
  induction x generalizing y with
  | nil =>
    cases y with
    | nil => exact fun _ => rfl
    | cons d w => intro h; simp only [encSym] at h; omega
  | cons c v ih =>
    cases y with
    | nil => intro h; simp only [encSym] at h; omega
    | cons d w =>
      intro h
      simp only [encSym] at h
      have h1 := char_lt c
      have h2 := char_lt d
      have h3 : c.toNat = d.toNat ∧ encSym v = encSym w := by omega
      have h4 : c = d := by
        apply Char.ext
        exact UInt32.toNat_inj.1 h3.1
      rw [h4, ih w h3.2]

/-- The first symbols. -/
def firstSymbols : List Sym := [Hfst.Basic.epsilon, Hfst.Basic.unknown, Hfst.Basic.identity, sfstEpsilon]

/-- The special symbols first, then the others. -/
def demoNumber (x : Sym) : Nat := if x ∈ firstSymbols then firstSymbols.idxOf x else 4 + encSym x

theorem demoNumber_ok : Numbering demoNumber := by
  refine ⟨by decide +kernel, by decide +kernel, by decide +kernel, fun x y h => ?_⟩
  have hlt : ∀ x, x ∈ firstSymbols → firstSymbols.idxOf x < 4 := fun x hx => List.idxOf_lt_length_of_mem hx
  unfold demoNumber at h
  split at h
  · next h1 =>
    split at h
    · exact (List.idxOf_inj h1).1 h
    · have := hlt x h1; omega
  · split at h
    · next h2 => have := hlt y h2; omega
    · exact encSym_inj x y (by omega)

/-! ## Marks that stay behind -/

/-- The table of the examples. -/
def demoCodes : List (Nat × Sym) := [(0, sfstEpsilon), (1, Hfst.Basic.unknown), (2, Hfst.Basic.identity), (3, ['a']), (4, ['b'])]

theorem demoCodes_one : OneSymbol demoCodes := by
  intro c x y hx hy
  simp only [demoCodes, List.mem_cons, Prod.mk.injEq, List.not_mem_nil, or_false] at hx hy
  rcases hx with ⟨rfl, rfl⟩ | ⟨rfl, rfl⟩ | ⟨rfl, rfl⟩ | ⟨rfl, rfl⟩ | ⟨rfl, rfl⟩ <;>
    rcases hy with ⟨h, rfl⟩ | ⟨h, rfl⟩ | ⟨h, rfl⟩ | ⟨h, rfl⟩ | ⟨h, rfl⟩ <;> first | rfl | (exfalso; omega)

/-- `a* b`. -/
def loopThenEnd : Shared :=
  ⟨⟨2, fun n => if n = 0 then ⟨[(⟨3, 3⟩, 0), (⟨4, 4⟩, 1)], false⟩ else if n = 1 then ⟨[], true⟩ else Node.init⟩, fun _ => 0, 0, none, demoCodes⟩

theorem loopThenEnd_closed : loopThenEnd.graph.Closed := by
  refine ⟨by decide, fun n hn a ha => ?_⟩
  have : n = 0 ∨ n = 1 := by have : n < 2 := hn; omega
  rcases this with rfl | rfl
  · have h : a ∈ [((⟨3, 3⟩ : Label), 0), (⟨4, 4⟩, 1)] := ha
    simp only [List.mem_cons, List.not_mem_nil, or_false] at h
    rcases h with rfl | rfl <;> decide
  · cases ha

/-- **C87 fails for cyclic transducers.**  `a* b` is converted to the basic format, asked if it is cyclic (it is), and converted again: the
second result has no final state, so it accepts nothing, while the first accepts as it should.  The question went no further than to
the first cycle, so the marks of the first conversion stay on the other nodes, and the second conversion takes them for its own. -/
theorem C87_cyclic_violated : ∃ t : Shared, t.graph.Closed ∧ t.Uniform 0 ∧ t.vmark = 0 ∧ t.order = none ∧ OneSymbol t.codes ∧
    ∃ b1 V1 t1 t2 b2 V2 t3, t.toBasic 10000 = .ok (b1, V1, t1) ∧ t1.isCyclic = .ok (true, t2) ∧ t2.toBasic V1 = .ok (b2, V2, t3) ∧
      b1.final 1 = some 0 ∧ b1.arcs 0 = b2.arcs 0 ∧ ∀ s, b2.final s = none :=
  ⟨loopThenEnd, loopThenEnd_closed, fun _ _ => rfl, rfl, rfl, demoCodes_one, _, _, _, _, _, _, _, rfl, rfl, rfl, by decide +kernel,
    by decide +kernel, fun _ => rfl⟩

/-- `a*`, where the root has the mark `k`. -/
def loopAt (k : Nat) : Shared :=
  ⟨⟨1, fun n => if n = 0 then ⟨[(⟨3, 3⟩, 0)], true⟩ else Node.init⟩, fun j => if j = 0 then k else 0, k, none, demoCodes⟩

theorem loopAt_step {k : Nat} (hk : k + 1 ≠ 65536) : (loopAt k).isCyclic = .ok (true, loopAt (k + 1)) := by
  have hi : (loopAt k).incr = { loopAt k with vmark := k + 1 } := by unfold Shared.incr; rw [if_neg (by exact hk)]; rfl
  have hm : setMark (loopAt k).mark 0 (k + 1) = (loopAt (k + 1)).mark := by
    funext j
    by_cases h : j = 0
    · subst h; rfl
    · rw [setMark_of_ne _ _ h]; simp [loopAt, h]
  unfold Shared.isCyclic
  rw [hi]
  show (match cyclicNode (loopAt k).graph (k + 1) 3 [] 0 (loopAt k).mark with | some r => _ | none => _) = _
  have : cyclicNode (loopAt k).graph (k + 1) 3 [] 0 (loopAt k).mark = some (true, setMark (loopAt k).mark 0 (k + 1)) := by
    rw [cyclicNode, if_neg (by show k ≠ k + 1; omega)]
    rfl
  rw [this, hm]
  rfl

/-- **C87 fails after ten thousand walks.**  `a*` is asked 9998 times if it is cyclic, converted to the basic format, and asked again: now the
answer is no.  The walk has come to the number that conversion marks with. -/
theorem C87_ten_thousand_violated : ∃ t : Shared, t.graph.Closed ∧ t.Uniform 0 ∧ t.vmark = 0 ∧ t.order = none ∧ OneSymbol t.codes ∧
    t.graph.Cyclic ∧ (∃ t1, t.isCyclic = .ok (true, t1)) ∧
    ∃ V t1 t2, Shared.calls (List.replicate 9998 Call.cyclic ++ [Call.basic]) (10000, t) = .ok (V, t1) ∧ t1.isCyclic = .ok (false, t2) := by
  have key : ∀ n k rest, k + n < 65535 →
      Shared.calls (List.replicate n Call.cyclic ++ rest) (10000, loopAt k) = Shared.calls rest (10000, loopAt (k + n)) := by
    intro n
    induction n with
    | zero => intro k rest _; rfl
    | succ n ih =>
      intro k rest h
      rw [List.replicate_succ, List.cons_append]
      unfold Shared.calls at ih ⊢
      rw [steps]
      have : Shared.call (10000, loopAt k) Call.cyclic = .ok (10000, loopAt (k + 1)) := by
        simp only [Shared.call]
        rw [loopAt_step (by omega)]
        rfl
      rw [this]
      show steps Shared.call (List.replicate n Call.cyclic ++ rest) (10000, loopAt (k + 1)) = _
      rw [ih (k + 1) rest (by omega), show k + 1 + n = k + (n + 1) from by omega]
  refine ⟨loopAt 0, ⟨by decide, fun n hn a ha => ?_⟩, fun n _ => by show (if n = 0 then 0 else 0) = 0; split <;> rfl, rfl, rfl, demoCodes_one,
    ⟨0, ⟨3, 3⟩, 0, .refl, List.mem_singleton.2 rfl, .refl⟩, ⟨_, loopAt_step (by decide)⟩, ?_⟩
  · have : n = 0 := by have : n < 1 := hn; omega
    subst this
    have h : a ∈ [((⟨3, 3⟩ : Label), 0)] := ha
    rw [List.mem_singleton.1 h]; decide
  · rw [key 9998 0 _ (by omega), Nat.zero_add]
    exact ⟨_, _, _, rfl, rfl⟩

/-- A symbol that is not in the alphabet, as `add_transition` leaves it when it is told not to add symbols and as
`remove_symbol_from_alphabet` leaves it. -/
def outsider : Hfst.Basic.Graph := ⟨[[⟨1, ['a'], ['a'], 0⟩], []], [(1, 0)], [Hfst.Basic.epsilon, Hfst.Basic.unknown, Hfst.Basic.identity]⟩

/-- **C87 fails for symbols that are not in the alphabet.**  The transducer that accepts `a` becomes one that accepts the empty string. -/
theorem C87_alphabet_violated : Hfst.Basic.WF outsider ∧ outsider.arcs 0 = [⟨1, ['a'], ['a'], 0⟩] ∧
    ∃ t, fromBasic demoNumber outsider = .ok t ∧ (t.graph.node 0).arcs = [(⟨0, 0⟩, 1)] ∧ t.graph.Takes 0 [] := by
  refine ⟨⟨by decide, fun s a h => ?_, fun s w h => ?_⟩, rfl, _, rfl, rfl, ?_⟩
  · rcases s with _ | _ | s
    · have h : a ∈ [(⟨1, ['a'], ['a'], 0⟩ : Hfst.Basic.Arc)] := h
      rw [List.mem_singleton.1 h]; decide
    · cases h
    · cases h
  · by_cases e : s = 1
    · subst e; decide
    · exfalso
      simp only [Hfst.Basic.Graph.final, Hfst.Basic.mapGet, outsider, List.find?_cons, List.find?_nil] at h
      rw [decide_eq_false (fun h' => e h'.symm)] at h
      cases h
  · refine .skip (k' := 1) ?_ (.stop ?_)
    · exact List.mem_singleton.2 rfl
    · rfl

/-! ## Examples -/

/-- The codes of the example mean letters. -/
def demoSym (c : Nat) : Sym := if c = 3 then ['a'] else if c = 4 then ['b'] else Hfst.Basic.epsilon

theorem loopThenEnd_symbolic : loopThenEnd.Symbolic demoSym := by
  intro n _ a ha
  have h : a = (⟨3, 3⟩, 0) ∨ a = (⟨4, 4⟩, 1) := by
    have ha' : a ∈ (if n = 0 then (⟨[(⟨3, 3⟩, 0), (⟨4, 4⟩, 1)], false⟩ : Node) else if n = 1 then ⟨[], true⟩ else Node.init).arcs := ha
    split at ha'
    · simpa using ha'
    · split at ha'
      · cases ha'
      · cases ha'
  rcases h with rfl | rfl <;> constructor <;> (unfold Stands; decide +kernel)

/-- `C87_import` and `C87_history_partial` apply to `a* b`, which is cyclic. -/
example : ∃ b W t', loopThenEnd.toBasic 12345 = .ok (b, W, t') ∧ ∃ φ, IsBasic loopThenEnd.graph demoSym b φ := by
  obtain ⟨b, W, t', e, h, _⟩ := C87_import (V := 12345) loopThenEnd_closed (fun ns h => by cases h) (m := 0) (fun _ _ => rfl)
    (fun _ => .inr fun _ _ => Nat.zero_ne_one) demoCodes_one loopThenEnd_symbolic
  exact ⟨b, W, t', e, h⟩

example : ∃ V' t', Shared.calls [.basic, .count, .other true, .basic, .whole, .basic] (10000, loopThenEnd) = .ok (V', t') ∧
    ∃ r t2, t'.isCyclic = .ok (r, t2) ∧ r = true := by
  obtain ⟨V', t', e, _, r, t2, e2, h⟩ := C87_history_partial loopThenEnd_closed (fun _ _ => rfl) rfl rfl demoCodes_one loopThenEnd_symbolic
    [.basic, .count, .other true, .basic, .whole, .basic] (by decide) (fun h => by simp at h)
  exact ⟨V', t', e, r, t2, e2, h.2 ⟨0, ⟨3, 3⟩, 0, .refl, List.mem_cons_self .., .refl⟩⟩

/-- `C87_cyclic`: both answers occur. -/
example : (∃ t', loopThenEnd.isCyclic = .ok (true, t')) ∧
    ∃ t', ({ loopThenEnd with graph := ⟨2, fun n => if n = 0 then ⟨[(⟨4, 4⟩, 1)], false⟩ else ⟨[], true⟩⟩ } : Shared).isCyclic =
      .ok (false, t') := ⟨⟨_, rfl⟩, ⟨_, rfl⟩⟩

/-- `a:b` with a loop, a state out of reach, and a weight. -/
def demoBasic : Hfst.Basic.Graph :=
  ⟨[[⟨0, ['b'], Hfst.Basic.epsilon, 5⟩, ⟨2, ['a'], ['b'], 0⟩], [⟨0, ['a'], ['a'], 0⟩], []], [(2, 7)],
    [['a'], ['b'], Hfst.Basic.epsilon, Hfst.Basic.unknown, Hfst.Basic.identity]⟩

theorem demoBasic_arcs {s : Nat} {a : Hfst.Basic.Arc} (h : a ∈ demoBasic.arcs s) :
    a = ⟨0, ['b'], Hfst.Basic.epsilon, 5⟩ ∨ a = ⟨2, ['a'], ['b'], 0⟩ ∨ a = ⟨0, ['a'], ['a'], 0⟩ := by
  rcases s with _ | _ | _ | s
  · have h : a ∈ [(⟨0, ['b'], Hfst.Basic.epsilon, 5⟩ : Hfst.Basic.Arc), ⟨2, ['a'], ['b'], 0⟩] := h
    simp only [List.mem_cons, List.not_mem_nil, or_false] at h
    rcases h with h | h
    · exact .inl h
    · exact .inr (.inl h)
  · have h : a ∈ [(⟨0, ['a'], ['a'], 0⟩ : Hfst.Basic.Arc)] := h
    exact .inr (.inr (List.mem_singleton.1 h))
  · cases h
  · cases h

/-- `C87_export` and `C87_roundtrip` apply. -/
example : ∃ t r W t', fromBasic demoNumber demoBasic = .ok t ∧ t.toBasic 10000 = .ok (r, W, t') ∧ (∃ φ, SameStates demoBasic r φ) ∧
    ∀ x, x ∈ r.alphabet ↔ x ∈ demoBasic.alphabet := by
  refine C87_roundtrip demoNumber_ok ⟨by decide, fun s a h => ?_, fun s w h => ?_⟩ ⟨fun s a h => ?_, ?_, ?_, ?_⟩ ?_ ?_ 10000
  · rcases demoBasic_arcs h with rfl | rfl | rfl <;> decide
  · by_cases e : s = 2
    · subst e; decide
    · exfalso
      simp only [Hfst.Basic.Graph.final, Hfst.Basic.mapGet, demoBasic, List.find?_cons, List.find?_nil] at h
      rw [decide_eq_false (fun h' => e h'.symm)] at h
      cases h
  · rcases demoBasic_arcs h with rfl | rfl | rfl <;> decide +kernel
  · decide +kernel
  · decide +kernel
  · decide +kernel
  · decide +kernel
  · decide +kernel

/-- `C87_refused` applies. -/
example : fromBasic demoNumber { demoBasic with alphabet := [sfstEpsilon] } = .throws :=
  C87_refused demoNumber_ok (List.mem_singleton.2 rfl) (fun x h => by rw [List.mem_singleton.1 h]; decide +kernel)

end Hfst.Sfst
