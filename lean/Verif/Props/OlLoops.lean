import Mathlib.Data.List.Perm.Subperm
import Verif.Model.OlLoops
import Verif.Spec.OlLoops
import Verif.Props.OlLookup
import Verif.Props.OlWalkBasic

/-!
# Optimized lookup: the search for loops
-/
namespace Hfst.Ol
open Hfst.Basic

section
variable {K : Kinds} {N : Net}

theorem NRun.append {q r t : Nat} {l m : List (NArc × Option Nat)} (h : NRun K N q l r) (h' : NRun K N r m t) : NRun K N q (l ++ m) t := by
  induction h with
  | nil => exact h'
  | cons ha ht _ ih => exact .cons ha ht (ih h')

theorem readBy_append (l m : List (NArc × Option Nat)) : readBy (l ++ m) = readBy l ++ readBy m := List.filterMap_append

/-- There is a loop, not looking at flags. -/
def Cyclic (K : Kinds) (N : Net) (ks : List Nat) : Prop :=
  ∃ l c q, NRun K N 0 l q ∧ readBy l <+: ks ∧ NRun K N q c q ∧ c ≠ [] ∧ readBy c = []

/-- All runs that read a beginning of the input have fewer than `d` transitions. -/
def Short (K : Kinds) (N : Net) (d q : Nat) (ks : List Nat) : Prop := ∀ l r, NRun K N q l r → readBy l <+: ks → l.length < d

/-- There is a run with `d` transitions. -/
def Long (K : Kinds) (N : Net) (d q : Nat) (ks : List Nat) : Prop := ∃ l r, NRun K N q l r ∧ readBy l <+: ks ∧ d ≤ l.length

/-- What a part of the search may end in. -/
def Judged (K : Kinds) (N : Net) (ks : List Nat) (short long : Prop) (s : LoopState) : Outcome LoopState → Prop
  | .ok s' => s'.flags = s.flags ∧ (∀ p ∈ s'.seen, p ∈ s.seen) ∧ short
  | .throws => Cyclic K N ks
  | .undefined => long

theorem Judged.mono {ks : List Nat} {a b c d : Prop} {s s' : LoopState} {o : Outcome LoopState} (h : Judged K N ks a b s o) (hf : s.flags = s'.flags)
    (hs : ∀ p ∈ s.seen, p ∈ s'.seen) (h1 : a → c) (h2 : b → d) : Judged K N ks c d s' o := by
  cases o with
  | ok x => exact ⟨h.1.trans hf, fun p hp => hs p (h.2.1 p hp), h1 h.2.2⟩
  | throws => exact h
  | undefined => exact h2 h

theorem Judged.bind {ks : List Nat} {a b c d : Prop} {s : LoopState} {o : Outcome LoopState} {f : LoopState → Outcome LoopState}
    (h : Judged K N ks a b s o) (hf : ∀ s', s'.flags = s.flags → (∀ p ∈ s'.seen, p ∈ s.seen) → a → Judged K N ks c d s (f s')) (hb : b → d) :
    Judged K N ks c d s (o.bind f) := by
  cases o with
  | ok x => exact hf x h.1 h.2.1 h.2.2
  | throws => exact h
  | undefined => exact hb h

end

section
variable {M : Machine} {n : Inputs} {N : Net} {pos : Nat → Nat}

/-- What holds when a state is visited: it was reached, and from the states that were seen it was reached without reading. -/
structure Entered (M : Machine) (N : Net) (pos : Nat → Nat) (ks : List Nat) (q ip : Nat) (s : LoopState) : Prop where
  state : q < N.size
  tape : ip ≤ ks.length
  reached : ∃ l, NRun M.kinds N 0 l q ∧ readBy l = ks.take ip
  seen : ∀ p ∈ s.seen, ∃ r < N.size, p.1 = pos r ∧ ∃ c, NRun M.kinds N r c q ∧ readBy c = []

/-- What a call should do. -/
def LoopSpec (M : Machine) (N : Net) (pos : Nat → Nat) (ks : List Nat) (d : Nat) (call : LoopCall) : Prop :=
  ∀ q ip s, Entered M N pos ks q ip s → Judged M.kinds N ks (Short M.kinds N d q (ks.drop ip)) (Long M.kinds N d q (ks.drop ip)) s (call ip (pos q) s)

theorem Entered.less {ks : List Nat} {q ip : Nat} {s s' : LoopState} (h : Entered M N pos ks q ip s) (hs : ∀ p ∈ s'.seen, p ∈ s.seen) :
    Entered M N pos ks q ip s' := ⟨h.state, h.tape, h.reached, fun p hp => h.seen p (hs p hp)⟩

theorem loop_eps (hR : Represents M n N pos) (hP : Apart N pos) {ks : List Nat} {d : Nat} {call : LoopCall} (hc : LoopSpec M N pos ks d call)
    (hF : ∀ q < N.size, ∀ a ∈ N.arcs q, ¬ M.kinds.Flag a.input) {q ip : Nat} :
    ∀ (l : List NArc) (fuel i : Nat) (s : LoopState), Entered M N pos ks q ip s → (∀ a ∈ l, a ∈ N.arcs q ∧ M.kinds.Free a) →
      Block M pos i l (fun t => t.input ≠ 0 ∧ ¬ M.kinds.Flag t.input) → l.length < fuel →
      Judged M.kinds N ks (∀ a ∈ l, Short M.kinds N d a.target (ks.drop ip)) (∃ a ∈ l, Long M.kinds N d a.target (ks.drop ip)) s
        (loopEpsilonTransitions M call ip fuel i s)
  | _, 0, _, _, _, _, _, hf => by omega
  | [], fuel + 1, i, s, hp, _, hb, _ => by
    obtain ⟨t, h1, h2, h3⟩ := hb.2
    rw [List.length_nil, Nat.add_zero] at h1
    rw [loopEpsilonTransitions, table_get hR.transSize h1]
    dsimp only
    rw [if_neg h2]
    cases hg : M.fd.getOperation t.input with
    | none => exact ⟨rfl, fun _ h => h, by simp⟩
    | some o => exact absurd ⟨o, hg⟩ h3
  | a :: l, fuel + 1, i, s, hp, ha, hb, hf => by
    obtain ⟨⟨t, h1, e1, e2, e3, -⟩, hb'⟩ := block_head hb
    obtain ⟨ha1, ha2⟩ := ha a (List.mem_cons_self ..)
    have hl : l.length < fuel := by simp only [List.length_cons] at hf; omega
    have ha' : ∀ b ∈ l, b ∈ N.arcs q ∧ M.kinds.Free b := fun b hb => ha b (List.mem_cons_of_mem _ hb)
    have htarget := hR.closed q hp.state a ha1
    have h0 : t.input = 0 := by
      rw [e1]
      exact ha2.resolve_right (hF q hp.state a ha1)
    have hstep : NRun M.kinds N q [(a, none)] a.target := .cons ha1 ha2 .nil
    rw [loopEpsilonTransitions, table_get hR.transSize h1]
    dsimp only
    rw [if_pos h0, e3]
    by_cases hseen : (pos a.target, s.flags.values) ∈ s.seen
    · rw [if_pos hseen]
      obtain ⟨r, hr, he, c, hc1, hc2⟩ := hp.seen _ hseen
      have he : r = a.target := hP r hr _ htarget he.symm
      subst he
      obtain ⟨l0, g1, g2⟩ := hp.reached
      refine ⟨l0 ++ [(a, none)], c ++ [(a, none)], a.target, g1.append hstep, ?_, hc1.append hstep, by simp, ?_⟩
      · rw [readBy_append, g2]
        show ks.take ip ++ [] <+: ks
        rw [List.append_nil]
        exact List.take_prefix _ _
      · rw [readBy_append, hc2]
        rfl
    · rw [if_neg hseen]
      have hnew : Entered M N pos ks a.target ip { s with seen := setInsert s.seen (pos a.target, s.flags.values) } := by
        refine ⟨htarget, hp.tape, ?_, ?_⟩
        · obtain ⟨l0, g1, g2⟩ := hp.reached
          refine ⟨l0 ++ [(a, none)], g1.append hstep, ?_⟩
          rw [readBy_append, g2]
          show ks.take ip ++ [] = _
          rw [List.append_nil]
        · intro p hps
          rcases mem_setInsert.mp hps with rfl | hps
          · exact ⟨a.target, htarget, rfl, [], .nil, rfl⟩
          · obtain ⟨r, hr, he, c, hc1, hc2⟩ := hp.seen p hps
            refine ⟨r, hr, he, c ++ [(a, none)], hc1.append hstep, ?_⟩
            rw [readBy_append, hc2]
            rfl
      have hcall := hc _ _ _ hnew
      revert hcall
      generalize call ip (pos a.target) { s with seen := setInsert s.seen (pos a.target, s.flags.values) } = o
      intro hcall
      cases o with
      | ok s1 =>
        obtain ⟨k1, k2, k3⟩ := hcall
        have hsub : ∀ p ∈ setErase s1.seen (pos a.target, s.flags.values), p ∈ s.seen := by
          intro p hps
          obtain ⟨hp1, hp2⟩ := mem_setErase.mp hps
          exact (mem_setInsert.mp (k2 p hp1)).resolve_left hp2
        have := loop_eps hR hP hc hF l fuel (i + 1) { s1 with seen := setErase s1.seen (pos a.target, s.flags.values), found := true }
          (hp.less hsub) ha' hb' hl
        refine this.mono k1 hsub ?_ ?_
        · intro h b hb
          rcases List.mem_cons.mp hb with rfl | hb
          · exact k3
          · exact h b hb
        · rintro ⟨b, hb, h⟩
          exact ⟨b, List.mem_cons_of_mem _ hb, h⟩
      | throws => exact hcall
      | undefined => exact ⟨a, List.mem_cons_self .., hcall⟩

theorem loop_symbol (hR : Represents M n N pos) {ks : List Nat} {d : Nat} {call : LoopCall} (hc : LoopSpec M N pos ks d call) {q ip x : Nat}
    (hx : ks[ip]? = some x) (hxo : x < M.orig) (hne : x ≠ noSymbol) :
    ∀ (l : List NArc) (fuel i : Nat) (s : LoopState), Entered M N pos ks q ip s → (∀ a ∈ l, a ∈ N.arcs q ∧ a.input = x) →
      Block M pos i l (fun t => t.input ≠ x) → l.length < fuel →
      Judged M.kinds N ks (∀ a ∈ l, Short M.kinds N d a.target (ks.drop (ip + 1))) (∃ a ∈ l, Long M.kinds N d a.target (ks.drop (ip + 1))) s
        (loopTransitions M call x (ip + 1) fuel i s)
  | _, 0, _, _, _, _, _, hf => by omega
  | [], fuel + 1, i, s, hp, _, hb, _ => by
    obtain ⟨t, h1, h2⟩ := hb.2
    rw [List.length_nil, Nat.add_zero] at h1
    rw [loopTransitions, table_get hR.transSize h1]
    dsimp only
    rw [if_neg fun h => h2 h.2]
    exact ⟨rfl, fun _ h => h, by simp⟩
  | a :: l, fuel + 1, i, s, hp, ha, hb, hf => by
    obtain ⟨⟨t, h1, e1, e2, e3, -⟩, hb'⟩ := block_head hb
    obtain ⟨ha1, ha2⟩ := ha a (List.mem_cons_self ..)
    have hl : l.length < fuel := by simp only [List.length_cons] at hf; omega
    have ha' : ∀ b ∈ l, b ∈ N.arcs q ∧ b.input = x := fun b hb => ha b (List.mem_cons_of_mem _ hb)
    have htarget := hR.closed q hp.state a ha1
    have hlt := (List.getElem?_eq_some_iff.mp hx).1
    have htake : ks.take (ip + 1) = ks.take ip ++ [x] := by
      rw [List.take_add_one, hx]
      rfl
    have hstep : NRun M.kinds N q [(a, some x)] a.target := by
      refine .cons ha1 (.inl ?_) .nil
      unfold Kinds.Direct
      rw [if_pos (show x < M.kinds.orig from hxo)]
      exact ha2
    rw [loopTransitions, table_get hR.transSize h1]
    dsimp only
    rw [e1, if_pos ⟨by rw [ha2]; exact hne, ha2⟩, e3]
    have hnew : Entered M N pos ks a.target (ip + 1) { s with seen := [] } := by
      refine ⟨htarget, hlt, ?_, by simp⟩
      obtain ⟨l0, g1, g2⟩ := hp.reached
      refine ⟨l0 ++ [(a, some x)], g1.append hstep, ?_⟩
      rw [readBy_append, g2, htake]
      rfl
    have hcall := hc _ _ _ hnew
    revert hcall
    generalize call (ip + 1) (pos a.target) { s with seen := [] } = o
    intro hcall
    cases o with
    | ok s1 =>
      obtain ⟨k1, k2, k3⟩ := hcall
      have hsub : ∀ p ∈ s1.seen, p ∈ s.seen := fun p hps => absurd (k2 p hps) (by simp)
      have := loop_symbol hR hc hx hxo hne l fuel (i + 1) { s1 with found := true } (hp.less hsub) ha' hb' hl
      refine this.mono k1 hsub ?_ ?_
      · intro h b hb
        rcases List.mem_cons.mp hb with rfl | hb
        · exact k3
        · exact h b hb
      · rintro ⟨b, hb, h⟩
        exact ⟨b, List.mem_cons_of_mem _ hb, h⟩
    | throws => exact hcall
    | undefined => exact ⟨a, List.mem_cons_self .., hcall⟩

theorem block_fuel {i : Nat} {l : List NArc} {stop : Trans → Prop} (h : Block M pos i l stop) : l.length < M.transitions.length + 1 := by
  obtain ⟨t, ht, _⟩ := h.2
  have := (List.getElem?_eq_some_iff.mp ht).1
  omega

/-- What trying the transitions without input should do. -/
def LoopEps (M : Machine) (N : Net) (pos : Nat → Nat) (ks : List Nat) (d q ip : Nat) (eps : LoopState → Outcome LoopState) : Prop :=
  ∀ s, Entered M N pos ks q ip s → Judged M.kinds N ks (∀ a ∈ N.arcs q, M.kinds.Free a → Short M.kinds N d a.target (ks.drop ip))
    (∃ a ∈ N.arcs q, M.kinds.Free a ∧ Long M.kinds N d a.target (ks.drop ip)) s (eps s)

/-- What trying the transitions with an input symbol should do. -/
def LoopFind (M : Machine) (N : Net) (pos : Nat → Nat) (ks : List Nat) (d q ip x : Nat) (find : LoopState → Outcome LoopState) : Prop :=
  ∀ s, Entered M N pos ks q ip s → Judged M.kinds N ks (∀ a ∈ N.arcs q, a.input = x → Short M.kinds N d a.target (ks.drop (ip + 1)))
    (∃ a ∈ N.arcs q, a.input = x ∧ Long M.kinds N d a.target (ks.drop (ip + 1))) s (find s)

theorem loop_eps_index (hR : Represents M n N pos) (hP : Apart N pos) {ks : List Nat} {d : Nat} {call : LoopCall} (hc : LoopSpec M N pos ks d call)
    (hF : ∀ q < N.size, ∀ a ∈ N.arcs q, ¬ M.kinds.Flag a.input) {q ip : Nat} (hI : InIndex M n N pos q) :
    LoopEps M N pos ks d q ip (loopEpsilonIndices M call ip (pos q + 1)) := by
  intro s hp
  obtain ⟨e, h1, h2⟩ := hI.free
  rw [Nat.add_zero] at h1
  unfold loopEpsilonIndices
  rw [table_get hR.indexSize h1]
  dsimp only
  rcases h2 with ⟨h2, h3⟩ | ⟨h2, _, l, h4, h5, h6⟩
  · rw [if_neg h2]
    exact ⟨rfl, fun _ h => h, fun a ha hf => absurd hf (h3 a ha)⟩
  · rw [if_pos h2]
    refine (loop_eps hR hP hc hF l _ _ s hp (fun a ha => (h5 a).mp ha) h6 (block_fuel h6)).bind ?_ ?_
    · intro s' k1 k2 k3
      exact ⟨k1, k2, fun a ha hf => k3 a ((h5 a).mpr ⟨ha, hf⟩)⟩
    · rintro ⟨a, ha, h⟩
      exact ⟨a, ((h5 a).mp ha).1, ((h5 a).mp ha).2, h⟩

theorem loop_eps_transitions (hR : Represents M n N pos) (hS : SymbolsOK M.kinds n N) (hP : Apart N pos) {ks : List Nat} {d : Nat} {call : LoopCall} (hc : LoopSpec M N pos ks d call)
    (hF : ∀ q < N.size, ∀ a ∈ N.arcs q, ¬ M.kinds.Flag a.input) {q ip : Nat} (hT : InTransitions M n N pos q) :
    LoopEps M N pos ks d q ip (loopEpsilonTransitions M call ip (M.transitions.length + 1) (pos q - targetStart + 1)) := by
  intro s hp
  obtain ⟨l, h1, h2⟩ := hT.block
  rcases hT.kind with hk | ⟨x, hx, hk⟩
  · have hb : Block M pos (pos q - targetStart + 1) l (fun t => t.input ≠ 0 ∧ ¬ M.kinds.Flag t.input) := by
      refine ⟨h2.1, ?_⟩
      obtain ⟨t, ht, ht'⟩ := h2.2
      have ht' : t.input = noSymbol := ht'
      exact ⟨t, ht, by rw [ht']; decide, by rw [ht']; exact hS.none⟩
    refine (loop_eps hR hP hc hF l _ _ s hp (fun a ha => ⟨(h1 a).mp ha, hk a ((h1 a).mp ha)⟩) hb (block_fuel hb)).mono rfl (fun _ h => h) ?_ ?_
    · intro h a ha _
      exact h a ((h1 a).mpr ha)
    · rintro ⟨a, ha, h⟩
      exact ⟨a, (h1 a).mp ha, hk a ((h1 a).mp ha), h⟩
  · have hno : ∀ b ∈ N.arcs q, ¬ M.kinds.Free b := by
      rintro b hb (h | h)
      · exact hx.1 ((hk b hb).symm.trans h)
      · rw [hk b hb] at h
        exact hx.2.2.1 h
    have hstop : Block M pos (pos q - targetStart + 1) [] (fun t => t.input ≠ 0 ∧ ¬ M.kinds.Flag t.input) := by
      refine ⟨fun k a h => (by simp at h), ?_⟩
      cases l with
      | nil =>
        obtain ⟨t, ht, ht'⟩ := h2.2
        have ht' : t.input = noSymbol := ht'
        exact ⟨t, ht, by rw [ht']; decide, by rw [ht']; exact hS.none⟩
      | cons a l' =>
        obtain ⟨⟨t, ht, e1, _⟩, _⟩ := block_head h2
        have : t.input = x := e1.trans (hk a ((h1 a).mp (List.mem_cons_self ..)))
        refine ⟨t, ?_, by rw [this]; exact hx.1, by rw [this]; exact hx.2.2.1⟩
        rw [List.length_nil, Nat.add_zero]
        exact ht
    refine (loop_eps hR hP hc hF [] _ _ s hp (by simp) hstop (by simp)).mono rfl (fun _ h => h) ?_ ?_
    · intro _ a ha hf
      exact absurd hf (hno a ha)
    · rintro ⟨a, ha, _⟩
      cases ha

theorem loop_find_index (hR : Represents M n N pos) {ks : List Nat} {d : Nat} {call : LoopCall} (hc : LoopSpec M N pos ks d call)
    {q ip x : Nat} (hx : ks[ip]? = some x) (hxo : x < M.orig) (hin : IsInput M.kinds n x) (hI : InIndex M n N pos q) :
    LoopFind M N pos ks d q ip x (loopIndex M call x (ip + 1) (pos q + 1)) := by
  intro s hp
  obtain ⟨e, h1, h2⟩ := hI.symbol x hin
  unfold loopIndex
  rw [table_get hR.indexSize h1]
  dsimp only
  rcases h2 with ⟨h2, h3⟩ | ⟨h2, _, l, h4, h5, h6⟩
  · rw [if_neg h2]
    exact ⟨rfl, fun _ h => h, fun a ha hf => absurd hf (h3 a ha)⟩
  · rw [if_pos h2]
    refine (loop_symbol hR hc hx hxo hin.2.1 l _ _ s hp (fun a ha => (h5 a).mp ha) h6 (block_fuel h6)).bind ?_ ?_
    · intro s' k1 k2 k3
      exact ⟨k1, k2, fun a ha hf => k3 a ((h5 a).mpr ⟨ha, hf⟩)⟩
    · rintro ⟨a, ha, h⟩
      exact ⟨a, ((h5 a).mp ha).1, ((h5 a).mp ha).2, h⟩

theorem loop_find_transitions (hR : Represents M n N pos) {ks : List Nat} {d : Nat} {call : LoopCall} (hc : LoopSpec M N pos ks d call)
    {q ip x : Nat} (hx : ks[ip]? = some x) (hxo : x < M.orig) (hin : IsInput M.kinds n x) (hT : InTransitions M n N pos q) :
    LoopFind M N pos ks d q ip x (loopTransitions M call x (ip + 1) (M.transitions.length + 1) (pos q - targetStart + 1)) := by
  intro s hp
  obtain ⟨l, h1, h2⟩ := hT.block
  by_cases hall : ∀ a ∈ l, a.input = x
  · have hb : Block M pos (pos q - targetStart + 1) l (fun t => t.input ≠ x) := by
      refine ⟨h2.1, ?_⟩
      obtain ⟨t, ht, ht'⟩ := h2.2
      exact ⟨t, ht, fun h => hin.2.1 (h.symm.trans ht')⟩
    refine (loop_symbol hR hc hx hxo hin.2.1 l _ _ s hp (fun a ha => ⟨(h1 a).mp ha, hall a ha⟩) hb (block_fuel hb)).mono rfl (fun _ h => h) ?_ ?_
    · intro h a ha _
      exact h a ((h1 a).mpr ha)
    · rintro ⟨a, ha, h⟩
      exact ⟨a, (h1 a).mp ha, hall a ha, h⟩
  · have hno : ∀ a ∈ N.arcs q, a.input ≠ x := by
      intro a ha hay
      rcases hT.kind with h | ⟨y, hy, h⟩
      · rcases h a ha with h | h
        · exact hin.1 (hay.symm.trans h)
        · rw [hay] at h
          exact hin.2.2.1 h
      · exact hall fun b hb => by rw [h b ((h1 b).mp hb), ← h a ha, hay]
    have hb : Block M pos (pos q - targetStart + 1) [] (fun t => t.input ≠ x) := by
      refine ⟨fun k a h => (by simp at h), ?_⟩
      match l, h1, h2, hall with
      | [], h1, h2, hall => exact absurd (by simp) hall
      | a :: l', h1, h2, _ =>
        obtain ⟨⟨t, ht, e1, _⟩, _⟩ := block_head h2
        refine ⟨t, by rw [List.length_nil, Nat.add_zero]; exact ht, ?_⟩
        dsimp only
        rw [e1]
        exact hno a ((h1 a).mp (List.mem_cons_self ..))
    refine (loop_symbol hR hc hx hxo hin.2.1 [] _ _ s hp (by simp) hb (by simp)).mono rfl (fun _ h => h) ?_ ?_
    · intro _ a ha hf
      exact absurd hf (hno a ha)
    · rintro ⟨a, ha, _⟩
      cases ha

theorem loop_visit {ks rest : List Nat} {d q ip x : Nat} (hdef : M.alphabet.default = noSymbol) (hK : ∀ x ∈ ks, x < n.count ∧ x < M.orig ∧ x ≠ noSymbol)
    (ht : M.tape = ks ++ noSymbol :: rest) (hx : M.tape[ip]? = some x) {s : LoopState} (hp : Entered M N pos ks q ip s)
    {eps : LoopState → Outcome LoopState} {find : Nat → LoopState → Outcome LoopState}
    (heps : LoopEps M N pos ks d q ip eps) (hfind : ks[ip]? = some x → LoopFind M N pos ks d q ip x (find x)) :
    Judged M.kinds N ks (Short M.kinds N (d + 1) q (ks.drop ip)) (Long M.kinds N (d + 1) q (ks.drop ip)) s (loopVisit M x eps find s) := by
  have hread : ∀ {a : NArc} {y : Nat}, Takes M.kinds N q a (some y) → y < M.orig → a.input = y := by
    intro a y h hy
    rcases h with h | ⟨h1, h2, _⟩
    · unfold Kinds.Direct at h
      rwa [if_pos (show y < M.kinds.orig from hy)] at h
    · exact absurd (h2.trans hdef) h1
  have hend : x = noSymbol → ks.drop ip = [] := by
    intro h
    by_cases hlt : ip < ks.length
    · rw [ht, List.getElem?_append_left hlt] at hx
      exact absurd h (hK x (List.mem_of_getElem? hx)).2.2
    · rw [List.drop_eq_nil_iff]
      omega
  have hgo : x ≠ noSymbol → ks[ip]? = some x := by
    intro h
    by_cases hlt : ip < ks.length
    · rwa [ht, List.getElem?_append_left hlt] at hx
    · have : ip = ks.length := Nat.le_antisymm hp.tape (by omega)
      rw [ht, this, List.getElem?_append_right (Nat.le_refl _), Nat.sub_self] at hx
      simp only [List.getElem?_cons_zero, Option.some.injEq] at hx
      exact absurd hx.symm h
  unfold loopVisit
  refine (heps s hp).bind ?_ ?_
  · intro s1 k1 k2 k3
    by_cases h0 : x = noSymbol
    · rw [if_pos h0]
      refine ⟨k1, k2, ?_⟩
      intro l r hl hr
      rw [hend h0] at hr
      cases hl with
      | nil => exact Nat.succ_pos _
      | @cons _ _ a c l ha htk hl =>
        cases c with
        | none =>
          have := k3 a ha htk l r hl (by rw [hend h0]; exact hr)
          rw [List.length_cons]
          omega
        | some y => simp [readBy] at hr
    · rw [if_neg h0]
      have hxk := hgo h0
      have hdrop : ks.drop ip = x :: ks.drop (ip + 1) := by
        obtain ⟨h1, h2⟩ := List.getElem?_eq_some_iff.mp hxk
        rw [List.drop_eq_getElem_cons h1, h2]
      refine Judged.mono (s := s1) ?_ k1 k2 (fun h => h) (fun h => h)
      refine (hfind hxk s1 (hp.less k2)).bind ?_ ?_
      · intro s2 m1 m2 m3
        rw [if_neg fun h => h.1 hdef]
        refine ⟨m1, m2, ?_⟩
        intro l r hl hr
        cases hl with
        | nil => exact Nat.succ_pos _
        | @cons _ _ a c l ha htk hl =>
          rw [List.length_cons]
          cases c with
          | none =>
            have := k3 a ha htk l r hl hr
            omega
          | some y =>
            rw [hdrop] at hr
            have hr : y :: readBy l <+: x :: ks.drop (ip + 1) := hr
            rw [List.cons_prefix_cons] at hr
            have := m3 a ha (by rw [← hr.1]; exact hread htk (by rw [hr.1]; exact (hK x (List.mem_of_getElem? hxk)).2.1)) l r hl hr.2
            omega
      · rintro ⟨a, ha, hax, l, r, h1, h2, h3⟩
        refine ⟨(a, some x) :: l, r, .cons ha (.inl ?_) h1, ?_, ?_⟩
        · unfold Kinds.Direct
          rw [if_pos (show x < M.kinds.orig from (hK x (List.mem_of_getElem? hxk)).2.1)]
          exact hax
        · rw [hdrop]
          show x :: readBy l <+: _
          rw [List.cons_prefix_cons]
          exact ⟨rfl, h2⟩
        · rw [List.length_cons]
          omega
  · rintro ⟨a, ha, hf, l, r, h1, h2, h3⟩
    refine ⟨(a, none) :: l, r, .cons ha hf h1, h2, ?_⟩
    rw [List.length_cons]
    omega

theorem loop_spec (hR : Represents M n N pos) (hS : SymbolsOK M.kinds n N) (hP : Apart N pos)
    (hF : ∀ q < N.size, ∀ a ∈ N.arcs q, ¬ M.kinds.Flag a.input) (hdef : M.alphabet.default = noSymbol) {ks rest : List Nat}
    (hK : ∀ x ∈ ks, x < n.count ∧ x < M.orig ∧ x ≠ noSymbol) (hin : ∀ x ∈ ks, IsInput M.kinds n x)
    (ht : M.tape = ks ++ noSymbol :: rest) : ∀ d, LoopSpec M N pos ks d (findLoop M d)
  | 0 => fun q ip s _ => ⟨[], q, .nil, List.nil_prefix, Nat.le_refl _⟩
  | d + 1 => by
    have ih := loop_spec hR hS hP hF hdef hK hin ht d
    intro q ip s hp
    have hget : ∃ x, M.tape[ip]? = some x := by
      refine ⟨_, List.getElem?_eq_getElem ?_⟩
      rw [ht, List.length_append, List.length_cons]
      have := hp.tape
      omega
    obtain ⟨x, hx⟩ := hget
    rw [findLoop, hx]
    dsimp only
    have hp0 : Entered M N pos ks q ip { s with found := false } := ⟨hp.state, hp.tape, hp.reached, hp.seen⟩
    rcases hR.placed q hp.state with hI | hT
    · rw [if_neg (Nat.not_le.mpr hI.low)]
      exact (loop_visit hdef hK ht hx hp0 (loop_eps_index hR hP ih hF hI)
        (fun h => loop_find_index hR ih h (hK x (List.mem_of_getElem? h)).2.1 (hin x (List.mem_of_getElem? h)) hI)).mono rfl (fun _ h => h)
        (fun h => h) (fun h => h)
    · rw [if_pos hT.high]
      exact (loop_visit hdef hK ht hx hp0 (loop_eps_transitions hR hS hP ih hF hT)
        (fun h => loop_find_transitions hR ih h (hK x (List.mem_of_getElem? h)).2.1 (hin x (List.mem_of_getElem? h)) hT)).mono rfl (fun _ h => h)
        (fun h => h) (fun h => h)

/-! ## Without loops the runs are short -/

/-- The states of a run with the numbers of symbols that have been read. -/
def stages : Nat → Nat → List (NArc × Option Nat) → List (Nat × Nat)
  | q, p, [] => [(q, p)]
  | q, p, (a, c) :: l => (q, p) :: stages a.target (p + c.toList.length) l

theorem stages_length : ∀ (q p : Nat) (l : List (NArc × Option Nat)), (stages q p l).length = l.length + 1
  | _, _, [] => rfl
  | q, p, (a, c) :: l => by rw [stages, List.length_cons, stages_length, List.length_cons]

theorem readBy_cons (a : NArc) (c : Option Nat) (l : List (NArc × Option Nat)) : readBy ((a, c) :: l) = c.toList ++ readBy l := by
  cases c <;> rfl

theorem mem_stages {K : Kinds} {t u : Nat} : ∀ {l : List (NArc × Option Nat)} {q p r : Nat}, NRun K N q l r → (t, u) ∈ stages q p l →
    ∃ l1 l2, l = l1 ++ l2 ∧ NRun K N q l1 t ∧ u = p + (readBy l1).length
  | [], q, p, r, hr, h => by
    cases hr
    have h : (t, u) = (q, p) := by simpa [stages] using h
    injection h with h1 h2
    subst h1 h2
    exact ⟨[], [], rfl, .nil, rfl⟩
  | (a, c) :: l, q, p, r, hr, h => by
    cases hr with
    | cons ha htk hl =>
      rw [stages] at h
      rcases List.mem_cons.mp h with h | h
      · injection h with h1 h2
        subst h1 h2
        exact ⟨[], _, rfl, .nil, rfl⟩
      · obtain ⟨l1, l2, rfl, h2, h3⟩ := mem_stages hl h
        refine ⟨(a, c) :: l1, l2, rfl, .cons ha htk h2, ?_⟩
        rw [readBy_cons, List.length_append, h3]
        omega

theorem stages_nodup {K : Kinds} {ks : List Nat} (hn : ¬ Cyclic K N ks) : ∀ {l l0 : List (NArc × Option Nat)} {q p r : Nat}, NRun K N 0 l0 q →
    NRun K N q l r → readBy (l0 ++ l) <+: ks → (stages q p l).Nodup
  | [], _, q, p, _, _, _, _ => by simp [stages]
  | (a, c) :: l, l0, q, p, r, h0, hr, hk => by
    have hr' := hr
    cases hr with
    | cons ha htk hl =>
      rw [stages, List.nodup_cons]
      have hone : NRun K N q [(a, c)] a.target := .cons ha htk .nil
      refine ⟨?_, stages_nodup hn (h0.append hone) hl (by rw [List.append_assoc]; exact hk)⟩
      intro hm
      obtain ⟨l1, l2, rfl, h2, h3⟩ := mem_stages hl hm
      have hzero : c.toList.length = 0 ∧ (readBy l1).length = 0 := by omega
      refine hn ⟨l0, (a, c) :: l1, q, h0, ?_, .cons ha htk h2, by simp, ?_⟩
      · refine List.IsPrefix.trans ?_ hk
        rw [readBy_append]
        exact List.prefix_append _ _
      · rw [readBy_cons, List.append_eq_nil_iff]
        exact ⟨List.length_eq_zero_iff.mp hzero.1, List.length_eq_zero_iff.mp hzero.2⟩

theorem run_state {K : Kinds} (hcl : ∀ q < N.size, ∀ a ∈ N.arcs q, a.target < N.size) {q r : Nat} {l : List (NArc × Option Nat)} (h : NRun K N q l r) :
    q < N.size → r < N.size := by
  induction h with
  | nil => exact fun h => h
  | cons ha _ _ ih => exact fun h => ih (hcl _ h _ ha)

theorem run_short {K : Kinds} (h0 : 0 < N.size) (hcl : ∀ q < N.size, ∀ a ∈ N.arcs q, a.target < N.size) {ks : List Nat} (hn : ¬ Cyclic K N ks)
    {l : List (NArc × Option Nat)} {r : Nat} (h : NRun K N 0 l r) (hk : readBy l <+: ks) : l.length < N.size * (ks.length + 1) := by
  have h1 : (stages 0 0 l).Nodup := stages_nodup (l0 := []) hn .nil h hk
  have h2 : stages 0 0 l ⊆ (List.range N.size).product (List.range (ks.length + 1)) := by
    rintro ⟨t, u⟩ hm
    obtain ⟨l1, l2, rfl, h4, h5⟩ := mem_stages h hm
    rw [List.pair_mem_product]
    refine ⟨List.mem_range.mpr (run_state hcl h4 h0), List.mem_range.mpr ?_⟩
    rw [readBy_append] at hk
    have := ((List.prefix_append _ _).trans hk).length_le
    omega
  have h3 := (List.Nodup.subperm h1 h2).length_le
  rw [stages_length, List.product, List.length_flatMap, List.map_congr_left (g := fun _ => ks.length + 1) (by intros; simp), List.map_const', List.length_range, List.sum_replicate_nat] at h3
  omega

theorem run_arcs {K : Kinds} {q r : Nat} {l : List (NArc × Option Nat)} (h : NRun K N q l r)
    (hcl : ∀ q < N.size, ∀ a ∈ N.arcs q, a.target < N.size) : q < N.size → ∀ x ∈ l, ∃ s < N.size, x.1 ∈ N.arcs s := by
  induction h with
  | nil => simp
  | cons ha _ _ ih =>
    intro hq x hx
    rcases List.mem_cons.mp hx with rfl | hx
    · exact ⟨_, hq, ha⟩
    · exact ih (hcl _ hq _ ha) x hx

theorem passes_plain {K : Kinds} (st : Flags.FdState) : ∀ {xs : List Nat}, (∀ x ∈ xs, ¬ K.Flag x) → K.fd.passes st xs = some true
  | [], _ => rfl
  | x :: xs, h => by
    show (match st.applySymbol K.fd x with
      | none => none
      | some (true, st') => K.fd.passes st' xs
      | some (false, _) => some false) = some true
    rw [apply_plain (h x (List.mem_cons_self ..))]
    exact passes_plain st fun y hy => h y (List.mem_cons_of_mem _ hy)

theorem cyclic_repeats {K : Kinds} (h0 : 0 < N.size) (hcl : ∀ q < N.size, ∀ a ∈ N.arcs q, a.target < N.size)
    (hF : ∀ q < N.size, ∀ a ∈ N.arcs q, ¬ K.Flag a.input) {ks : List Nat} (st : Flags.FdState) : Cyclic K N ks ↔ Repeats K N st ks := by
  constructor
  · rintro ⟨l, c, q, h1, h2, h3, h4, h5⟩
    refine ⟨l, c, q, h1, h2, h3, h4, h5, fun n => passes_plain st ?_⟩
    intro x hx
    obtain ⟨y, hy, rfl⟩ := List.mem_map.mp hx
    have hy : y ∈ l ∨ y ∈ c := by
      rcases List.mem_append.mp hy with hy | hy
      · exact .inl hy
      · obtain ⟨m, hm, hy⟩ := List.mem_flatten.mp hy
        rw [List.eq_of_mem_replicate hm] at hy
        exact .inr hy
    rcases hy with hy | hy
    · obtain ⟨s, hs, ha⟩ := run_arcs h1 hcl h0 y hy
      exact hF s hs _ ha
    · obtain ⟨s, hs, ha⟩ := run_arcs h3 hcl (run_state hcl h1 h0) y hy
      exact hF s hs _ ha
  · rintro ⟨l, c, q, h1, h2, h3, h4, h5, _⟩
    exact ⟨l, c, q, h1, h2, h3, h4, h5⟩

theorem repeat_run {K : Kinds} {q : Nat} {c : List (NArc × Option Nat)} (h : NRun K N q c q) : ∀ n, NRun K N q (List.replicate n c).flatten q
  | 0 => .nil
  | n + 1 => by
    rw [List.replicate_succ, List.flatten_cons]
    exact h.append (repeat_run h n)

/-- If no transition has a flag, the transducer has no default symbol, and the symbols of the input are input symbols of the
transducer, then the answer is right whenever the search ends, and it ends if the answer is no: a bound of the depth is the number of
states times one more than the number of input symbols.  Missing: that it ends if the answer is yes (`C41_endless_violated`), flags
(`C41_flags_violated`), and symbols that are not known (`C41_unknown_violated`). -/
theorem C41_tables_partial (hR : Represents M n N pos) (hS : SymbolsOK M.kinds n N)
    (hP : ∀ q < N.size, ∀ r < N.size, pos q = pos r → q = r)
    (hF : ∀ q < N.size, ∀ a ∈ N.arcs q, ¬ M.kinds.Flag a.input) (hdef : M.alphabet.default = noSymbol) {ks rest : List Nat}
    (hK : ∀ x ∈ ks, IsInput M.kinds n x ∧ x < n.count) (ht : M.tape = ks ++ noSymbol :: rest) (st : Flags.FdState) :
    (∀ fuel, infinitelyAmbiguous M fuel st = .ok true → Repeats M.kinds N st ks) ∧
    (∀ fuel, infinitelyAmbiguous M fuel st = .ok false → ¬ Repeats M.kinds N st ks) ∧
    (¬ Repeats M.kinds N st ks → ∀ fuel, N.size * (ks.length + 1) ≤ fuel → infinitelyAmbiguous M fuel st = .ok false) := by
  have hcr := cyclic_repeats (K := M.kinds) hR.nonempty hR.closed hF (ks := ks) st
  have hcall : ∀ fuel, Judged M.kinds N ks (Short M.kinds N fuel 0 ks) (Long M.kinds N fuel 0 ks) ⟨st, [], false⟩ (findLoop M fuel 0 0 ⟨st, [], false⟩) := by
    intro fuel
    have := loop_spec hR hS hP hF hdef (fun x hx => ⟨(hK x hx).2, Nat.lt_of_lt_of_le (hK x hx).2 hS.inputs, (hK x hx).1.2.1⟩) (fun x hx => (hK x hx).1) ht
      fuel 0 0 ⟨st, [], false⟩ ⟨hR.nonempty, Nat.zero_le _, ⟨[], .nil, rfl⟩, by simp⟩
    rwa [hR.start] at this
  refine ⟨?_, ?_, ?_⟩
  · intro fuel h
    have hc := hcall fuel
    unfold infinitelyAmbiguous at h
    cases ho : findLoop M fuel 0 0 ⟨st, [], false⟩ with
    | ok s => rw [ho] at h; cases h
    | undefined => rw [ho] at h; cases h
    | throws =>
      rw [ho] at hc
      exact hcr.mp hc
  · rintro fuel h ⟨l, c, q, h1, h2, h3, h4, h5, _⟩
    have hc := hcall fuel
    unfold infinitelyAmbiguous at h
    cases ho : findLoop M fuel 0 0 ⟨st, [], false⟩ with
    | throws => rw [ho] at h; cases h
    | undefined => rw [ho] at h; cases h
    | ok s =>
      rw [ho] at hc
      have hread : ∀ k, readBy (List.replicate k c).flatten = [] := by
        intro k
        induction k with
        | zero => rfl
        | succ k ih => rw [List.replicate_succ, List.flatten_cons, readBy_append, h5, ih]; rfl
      have := hc.2.2 (l ++ (List.replicate fuel c).flatten) q (h1.append (repeat_run h3 fuel)) (by rw [readBy_append, hread, List.append_nil]; exact h2)
      have hlen : fuel ≤ (List.replicate fuel c).flatten.length := by
        rw [List.length_flatten, List.map_replicate, List.sum_replicate_nat]
        exact Nat.le_mul_of_pos_right _ (List.length_pos_iff.mpr h4)
      rw [List.length_append] at this
      omega
  · intro hn fuel hf
    have hn' : ¬ Cyclic M.kinds N ks := fun h => hn (hcr.mp h)
    have hc := hcall fuel
    unfold infinitelyAmbiguous
    cases ho : findLoop M fuel 0 0 ⟨st, [], false⟩ with
    | throws =>
      rw [ho] at hc
      exact absurd hc hn'
    | undefined =>
      rw [ho] at hc
      obtain ⟨l, r, h1, h2, h3⟩ := hc
      have := run_short hR.nonempty hR.closed hn' h1 h2
      omega
    | ok s => rfl

end

end Hfst.Ol
