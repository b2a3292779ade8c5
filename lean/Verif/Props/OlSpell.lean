import Verif.Model.OlSpell
import Verif.Spec.OlSpell
import Verif.Props.OlLookup
import Verif.Props.OlLoops

/-!
# Optimized lookup: what the speller does with a node
-/
namespace Hfst.Ol
open Hfst.Basic

theorem take_loop {take : Nat → Outcome Taken} {body : Nat → Taken → List SpellNode → Outcome (List SpellNode)} {f : NArc → List SpellNode} :
    ∀ (l : List NArc) (fuel i : Nat) (queue : List SpellNode),
      (∀ k a, l[k]? = some a → ∃ t, take (i + k) = .ok t ∧ t.symbol ≠ noSymbol ∧ ∀ queue, body (i + k) t queue = .ok (queue ++ f a)) →
      (∃ t, take (i + l.length) = .ok t ∧ t.symbol = noSymbol) → l.length < fuel →
      takeLoop take body fuel i queue = .ok (queue ++ l.flatMap f)
  | _, 0, _, _, _, _, h => by omega
  | [], fuel + 1, i, queue, _, ⟨t, h1, h2⟩, _ => by
    rw [takeLoop]
    have h1 : take i = .ok t := h1
    rw [h1]
    show (if t.symbol = noSymbol then _ else _) = _
    rw [if_pos h2]
    simp
  | a :: l, fuel + 1, i, queue, ha, ht, hf => by
    obtain ⟨t, h1, h2, h3⟩ := ha 0 a rfl
    have h1 : take i = .ok t := h1
    have h3 : ∀ queue, body i t queue = .ok (queue ++ f a) := h3
    rw [takeLoop, h1]
    show (if t.symbol = noSymbol then _ else _) = _
    rw [if_neg h2, h3]
    show takeLoop take body fuel (i + 1) (queue ++ f a) = _
    rw [take_loop l fuel (i + 1) (queue ++ f a) ?_ ?_ (by simp only [List.length_cons] at hf; omega)]
    · rw [List.flatMap_cons, List.append_assoc]
    · intro k b hb
      have := ha (k + 1) b hb
      rw [Nat.add_assoc, Nat.add_comm 1]
      exact this
    · rw [List.length_cons] at ht
      rw [Nat.add_assoc, Nat.add_comm 1]
      exact ht

section
variable {M : Machine} {n : Inputs} {N : Net} {pos : Nat → Nat}

theorem low_next (hR : Represents M n N pos) {q x : Nat} {e : Index} (h : M.indices[pos q + 1 + x]? = some e) : ¬ targetStart ≤ pos q + 1 := by
  have := (List.getElem?_eq_some_iff.mp h).1
  have := hR.indexSize
  omega

theorem isFlag_iff {x : Nat} : M.isFlag x = true ↔ M.kinds.Flag x := by
  unfold Machine.isFlag Kinds.Flag
  exact Option.isSome_iff_exists

theorem not_flag {x : Nat} (h : ¬ M.kinds.Flag x) : M.isFlag x = false := by
  cases hx : M.isFlag x with
  | false => rfl
  | true => exact absurd (isFlag_iff.mp hx) h

/-- What is at the first place behind a state in the transition table. -/
theorem first_entry {q : Nat} (hT : InTransitions M n N pos q) : ∃ l t, (∀ a, a ∈ l ↔ a ∈ N.arcs q) ∧
    Block M pos (pos q - targetStart + 1) l (fun t => t.input = noSymbol) ∧ M.transitions[pos q - targetStart + 1]? = some t ∧
    ((l = [] ∧ t.input = noSymbol) ∨ ∃ a ∈ l, t.input = a.input) := by
  obtain ⟨l, h1, h2⟩ := hT.block
  cases l with
  | nil =>
    obtain ⟨t, ht, ht'⟩ := h2.2
    rw [List.length_nil, Nat.add_zero] at ht
    exact ⟨[], t, h1, h2, ht, .inl ⟨rfl, ht'⟩⟩
  | cons a l =>
    obtain ⟨⟨t, ht, e1, _⟩, _⟩ := block_head h2
    exact ⟨a :: l, t, h1, h2, ht, .inr ⟨a, List.mem_cons_self .., e1⟩⟩

theorem state_free (hR : Represents M n N pos) (hS : SymbolsOK M.kinds n N) {q : Nat} (hq : q < N.size) :
    (M.hasFree (pos q + 1) = .ok false ∧ ∀ a ∈ N.arcs q, ¬ M.kinds.Free a) ∨
    ∃ i l, M.hasFree (pos q + 1) = .ok true ∧ M.next (pos q) 0 = .ok i ∧ (∀ a, a ∈ l ↔ a ∈ N.arcs q ∧ M.kinds.Free a) ∧
      Block M pos i l fun t => t.input ≠ 0 ∧ ¬ M.kinds.Flag t.input := by
  rcases hR.placed q hq with hI | hT
  · obtain ⟨e, h1, h2⟩ := hI.free
    have hlow := low_next hR h1
    have hg := table_get hR.indexSize h1
    unfold Machine.hasFree Machine.next
    rw [if_neg hlow, if_neg (by have := hI.low; omega), hg]
    rcases h2 with ⟨h2, h3⟩ | ⟨h2, _, l, h4, h5, h6⟩
    · exact .inl ⟨by simp [h2], h3⟩
    · exact .inr ⟨_, l, by simp [h2], rfl, h5, h6⟩
  · have hhigh := hT.high
    obtain ⟨l, t, h1, h2, h3, h4⟩ := first_entry hT
    have hg := table_get hR.transSize h3
    have hsub : pos q + 1 - targetStart = pos q - targetStart + 1 := by omega
    unfold Machine.hasFree Machine.next
    rw [if_pos (by omega), if_pos hhigh, hsub, hg]
    rcases h4 with ⟨rfl, h4⟩ | ⟨a, ha, h4⟩
    · left
      refine ⟨?_, fun a ha => by have := (h1 a).mpr ha; cases this⟩
      dsimp only
      rw [h4, not_flag hS.none]
      rfl
    · rcases hT.kind with hk | ⟨x, hx, hk⟩
      · right
        refine ⟨_, l, ?_, rfl, ?_, h2.1, ?_⟩
        · dsimp only
          rw [h4]
          rcases hk a ((h1 a).mp ha) with h | h
          · rw [h]; rfl
          · rw [isFlag_iff.mpr h, Bool.or_true]
        · intro b
          rw [h1 b]
          exact ⟨fun h => ⟨h, hk b h⟩, fun h => h.1⟩
        · obtain ⟨u, hu, hu'⟩ := h2.2
          have hu' : u.input = noSymbol := hu'
          exact ⟨u, hu, by rw [hu']; decide, by rw [hu']; exact hS.none⟩
      · left
        refine ⟨?_, ?_⟩
        · dsimp only
          rw [h4, hk a ((h1 a).mp ha), not_flag hx.2.2.1, decide_eq_false hx.1]
          rfl
        · rintro b hb (h | h)
          · exact hx.1 ((hk b hb).symm.trans h)
          · rw [hk b hb] at h
            exact hx.2.2.1 h

theorem state_symbol (hR : Represents M n N pos) {q x : Nat} (hq : q < N.size) (hx : IsInput M.kinds n x) :
    (M.hasTransitions (pos q + 1) x = .ok false ∧ ∀ a ∈ N.arcs q, a.input ≠ x) ∨
    ∃ i l, M.hasTransitions (pos q + 1) x = .ok true ∧ M.next (pos q) x = .ok i ∧ (∀ a, a ∈ l ↔ a ∈ N.arcs q ∧ a.input = x) ∧
      Block M pos i l fun t => t.input ≠ x := by
  rcases hR.placed q hq with hI | hT
  · obtain ⟨e, h1, h2⟩ := hI.symbol x hx
    have hlow := low_next hR h1
    have hg := table_get hR.indexSize h1
    unfold Machine.hasTransitions Machine.next
    rw [if_neg hlow, if_neg (by have := hI.low; omega), hg]
    rcases h2 with ⟨h2, h3⟩ | ⟨h2, _, l, h4, h5, h6⟩
    · exact .inl ⟨by simp [h2], h3⟩
    · exact .inr ⟨_, l, by simp [h2], rfl, h5, h6⟩
  · have hhigh := hT.high
    obtain ⟨l, t, h1, h2, h3, h4⟩ := first_entry hT
    have hg := table_get hR.transSize h3
    have hsub : pos q + 1 - targetStart = pos q - targetStart + 1 := by omega
    unfold Machine.hasTransitions Machine.next
    rw [if_pos (by omega), if_pos hhigh, hsub, hg]
    rcases h4 with ⟨rfl, h4⟩ | ⟨a, ha, h4⟩
    · left
      refine ⟨?_, fun a ha => by have := (h1 a).mpr ha; cases this⟩
      dsimp only
      rw [h4, decide_eq_false (Ne.symm hx.2.1)]
    · by_cases hax : a.input = x
      · right
        have hall : ∀ b ∈ N.arcs q, b.input = x := by
          rcases hT.kind with hk | ⟨y, hy, hk⟩
          · rcases hk a ((h1 a).mp ha) with h | h
            · exact absurd (hax.symm.trans h) hx.1
            · rw [hax] at h
              exact absurd h hx.2.2.1
          · intro b hb
            rw [hk b hb, ← hk a ((h1 a).mp ha), hax]
        refine ⟨_, l, ?_, rfl, ?_, h2.1, ?_⟩
        · dsimp only
          rw [h4, hax, decide_eq_true rfl]
        · intro b
          rw [h1 b]
          exact ⟨fun h => ⟨h, hall b h⟩, fun h => h.1⟩
        · obtain ⟨u, hu, hu'⟩ := h2.2
          have hu' : u.input = noSymbol := hu'
          exact ⟨u, hu, by dsimp only; rw [hu']; exact Ne.symm hx.2.1⟩
      · left
        refine ⟨?_, ?_⟩
        · dsimp only
          rw [h4, decide_eq_false hax]
        · intro b hb hbx
          rcases hT.kind with hk | ⟨y, hy, hk⟩
          · rcases hk b hb with h | h
            · exact hx.1 (hbx.symm.trans h)
            · rw [hbx] at h
              exact hx.2.2.1 h
          · exact hax (by rw [hk a ((h1 a).mp ha), ← hk b hb, hbx])

theorem state_zero (hR : Represents M n N pos) (hF : ∀ q < N.size, ∀ a ∈ N.arcs q, ¬ M.kinds.Flag a.input)
    {q : Nat} (hq : q < N.size) :
    (M.hasTransitions (pos q + 1) 0 = .ok false ∧ ∀ a ∈ N.arcs q, a.input ≠ 0) ∨
    ∃ i l, M.hasTransitions (pos q + 1) 0 = .ok true ∧ M.next (pos q) 0 = .ok i ∧ (∀ a, a ∈ l ↔ a ∈ N.arcs q ∧ a.input = 0) ∧
      Block M pos i l fun t => t.input ≠ 0 := by
  have hfree : ∀ a ∈ N.arcs q, M.kinds.Free a ↔ a.input = 0 := fun a ha => ⟨fun h => h.resolve_right (hF q hq a ha), .inl⟩
  rcases hR.placed q hq with hI | hT
  · obtain ⟨e, h1, h2⟩ := hI.free
    have hlow := low_next hR h1
    have hg := table_get hR.indexSize h1
    unfold Machine.hasTransitions Machine.next
    rw [if_neg hlow, if_neg (by have := hI.low; omega), hg]
    rcases h2 with ⟨h2, h3⟩ | ⟨h2, _, l, h4, h5, h6⟩
    · exact .inl ⟨by simp [h2], fun a ha h => h3 a ha (.inl h)⟩
    · refine .inr ⟨_, l, by simp [h2], rfl, fun a => ?_, h6.1, ?_⟩
      · rw [h5 a]
        exact ⟨fun h => ⟨h.1, (hfree a h.1).mp h.2⟩, fun h => ⟨h.1, .inl h.2⟩⟩
      · obtain ⟨t, ht, ht', _⟩ := h6.2
        exact ⟨t, ht, ht'⟩
  · have hhigh := hT.high
    obtain ⟨l, t, h1, h2, h3, h4⟩ := first_entry hT
    have hg := table_get hR.transSize h3
    have hsub : pos q + 1 - targetStart = pos q - targetStart + 1 := by omega
    unfold Machine.hasTransitions Machine.next
    rw [if_pos (by omega), if_pos hhigh, hsub, hg]
    rcases h4 with ⟨rfl, h4⟩ | ⟨a, ha, h4⟩
    · left
      refine ⟨?_, fun a ha => by have := (h1 a).mpr ha; cases this⟩
      dsimp only
      rw [h4]
      rfl
    · rcases hT.kind with hk | ⟨x, hx, hk⟩
      · right
        refine ⟨_, l, ?_, rfl, ?_, h2.1, ?_⟩
        · dsimp only
          rw [h4, (hfree a ((h1 a).mp ha)).mp (hk a ((h1 a).mp ha))]
          rfl
        · intro b
          rw [h1 b]
          exact ⟨fun h => ⟨h, (hfree b h).mp (hk b h)⟩, fun h => h.1⟩
        · obtain ⟨u, hu, hu'⟩ := h2.2
          have hu' : u.input = noSymbol := hu'
          exact ⟨u, hu, by dsimp only; rw [hu']; decide⟩
      · left
        refine ⟨?_, fun b hb h => hx.1 ((hk b hb).symm.trans h)⟩
        dsimp only
        rw [h4, hk a ((h1 a).mp ha), decide_eq_false hx.1]

theorem state_final (hR : Represents M n N pos) {q : Nat} (hq : q < N.size) :
    (M.finalIndex (pos q) = .ok false ∧ N.final q = none) ∨
    ∃ w, M.finalIndex (pos q) = .ok true ∧ M.finalWeight (pos q) = .ok w ∧ N.final q = some w := by
  unfold Machine.finalIndex Machine.finalWeight
  rcases hR.placed q hq with hI | hT
  · obtain ⟨e, h1, h2⟩ := hI.state
    rw [if_neg (by have := hI.low; omega), if_neg (by have := hI.low; omega), table_get hR.indexSize h1]
    have hm := marks_index h2
    unfold Machine.indexFinal at hm
    dsimp only
    cases he : e.final with
    | false =>
      rw [he] at hm
      exact .inl ⟨rfl, hm.symm⟩
    | true =>
      rw [he] at hm
      exact .inr ⟨_, rfl, rfl, hm.symm⟩
  · obtain ⟨t, h1, h2⟩ := hT.state
    have hg : tableGet M.transitions (pos q) = some t := by
      have hg := table_get hR.transSize h1
      have h3 := (List.getElem?_eq_some_iff.mp h1).1
      have h4 := hT.high
      have h5 := hR.transSize
      unfold tableGet
      rw [if_neg (by omega)]
      exact h1
    rw [if_pos hT.high, if_pos hT.high, hg, table_get hR.transSize h1]
    have hm := marks_trans h2
    unfold Machine.transFinal at hm
    dsimp only
    cases he : t.final with
    | false =>
      rw [he] at hm
      exact .inl ⟨rfl, hm.symm⟩
    | true =>
      rw [he] at hm
      exact .inr ⟨_, rfl, rfl, hm.symm⟩

theorem known_output (hS : SymbolsOK M.kinds n N) {q : Nat} (hq : q < N.size) {a : NArc} (ha : a ∈ N.arcs q) : a.output ≠ noSymbol := by
  have h1 := (hS.known q hq a ha).2
  have h2 := hS.small
  omega

theorem apply_free {K : Kinds} {N : Net} (hS : SymbolsOK K n N) {st : Flags.FdState} (hst : st.values.length = K.fd.numFeatures) (x : Nat) :
    ∃ b st', st.applySymbol K.fd x = some (b, st') ∧ st'.values.length = K.fd.numFeatures := by
  unfold Flags.FdState.applySymbol
  cases hg : K.fd.getOperation x with
  | none => exact ⟨true, st, rfl, hst⟩
  | some o =>
    obtain ⟨b, st', h1, _, h2⟩ := apply_some (st := st) (o := o) (by rw [hst]; exact hS.features x o hg)
    exact ⟨b, st', h1, h2.trans hst⟩

/-- The nodes for an epsilon or flag transition of the lexicon. -/
def freeKids (fd : Flags.FdTable Nat) (pos : Nat → Nat) (x : SpellNode) (a : NArc) : List SpellNode :=
  match x.flags.applySymbol fd a.input with
  | some (true, fs) => [{ x with flags := fs }.update a.output x.input x.mutator (pos a.target) a.weight]
  | _ => []

end

section
variable {S : Speller} {n : Inputs} {N : Net} {pos : Nat → Nat}

theorem lexiconEpsilons_ok (hR : Represents S.lexicon n N pos) (hS : SymbolsOK S.lexicon.kinds n N) {x : SpellNode} {q : Nat} (hq : q < N.size)
    (hx : x.lexicon = pos q) (hf : x.flags.values.length = S.lexicon.fd.numFeatures) :
    ∃ kids, (∀ queue, S.lexiconEpsilons x queue = .ok (queue ++ kids)) ∧
      ∀ y, y ∈ kids ↔ ∃ a ∈ N.arcs q, S.lexicon.kinds.Free a ∧ y ∈ freeKids S.lexicon.fd pos x a := by
  unfold Speller.lexiconEpsilons
  rw [hx]
  rcases state_free hR hS hq with ⟨h1, h2⟩ | ⟨i, l, h1, h2, h3, h4⟩
  · refine ⟨[], fun queue => ?_, ?_⟩
    · rw [h1, List.append_nil]
      rfl
    · intro y
      constructor
      · intro h; cases h
      · rintro ⟨a, ha, hf, _⟩
        exact absurd hf (h2 a ha)
  · refine ⟨l.flatMap (freeKids S.lexicon.fd pos x), fun queue => ?_, ?_⟩
    · rw [h1, h2]
      show takeLoop _ _ _ i queue = _
      refine take_loop l _ i queue ?_ ?_ (block_fuel h4)
      · intro k a hka
        have ham := (h3 a).mp (List.mem_of_getElem? hka)
        obtain ⟨t, ht, e1, e2, e3, e4⟩ := h4.1 k a hka
        have hg := table_get hR.transSize ht
        refine ⟨⟨t.target, t.output, S.lexicon.transWeight t⟩, ?_, ?_, ?_⟩
        · unfold Machine.takeFree
          rw [hg]
          dsimp only
          rw [if_neg]
          rintro ⟨h5, h6⟩
          rw [e1] at h5 h6
          rcases ham.2 with h | h
          · exact h5 h
          · rw [isFlag_iff.mpr h] at h6
            cases h6
        · dsimp only
          rw [e2]
          exact known_output hS hq ham.1
        · intro queue
          unfold Speller.lexiconFree freeKids
          rw [hg]
          dsimp only
          have e4 : S.lexicon.transWeight t = a.weight := e4
          by_cases h0 : t.input = 0
          · have hap : x.flags.applySymbol S.lexicon.fd a.input = some (true, x.flags) :=
              apply_plain (K := S.lexicon.kinds) (by rw [← e1, h0]; exact hS.epsilon) _
            rw [if_pos h0, hap, e2, e3, e4]
          · rw [if_neg h0, e1]
            obtain ⟨b, st', hb, _⟩ := apply_free (K := S.lexicon.kinds) hS hf a.input
            have hb : x.flags.applySymbol S.lexicon.fd a.input = some (b, st') := hb
            rw [hb]
            cases b with
            | true => dsimp only; rw [e2, e3, e4]
            | false => dsimp only; rw [List.append_nil]
      · obtain ⟨t, ht, h5, h6⟩ := h4.2
        refine ⟨⟨0, noSymbol, 0⟩, ?_, rfl⟩
        unfold Machine.takeFree
        rw [table_get hR.transSize ht]
        dsimp only
        rw [if_pos ⟨h5, not_flag h6⟩]
    · intro y
      rw [List.mem_flatMap]
      constructor
      · rintro ⟨a, ha, hy⟩
        exact ⟨a, ((h3 a).mp ha).1, ((h3 a).mp ha).2, hy⟩
      · rintro ⟨a, ha, hf, hy⟩
        exact ⟨a, (h3 a).mpr ⟨ha, hf⟩, hy⟩

/-- Going through the transitions with an input symbol. -/
theorem symbol_loop {M : Machine} (hR : Represents M n N pos) (hS : SymbolsOK M.kinds n N) {q x : Nat} (hq : q < N.size) {i : Nat} {l : List NArc}
    (hl : ∀ a, a ∈ l ↔ a ∈ N.arcs q ∧ a.input = x) (hb : Block M pos i l fun t => t.input ≠ x)
    {body : Nat → Taken → List SpellNode → Outcome (List SpellNode)} {f : NArc → List SpellNode}
    (hbody : ∀ i queue, ∀ a ∈ N.arcs q, a.input = x → body i ⟨pos a.target, a.output, a.weight⟩ queue = .ok (queue ++ f a))
    {take : Nat → Outcome Taken} (htake : ∀ i, take i = M.takeSymbol i x)
    (queue : List SpellNode) : takeLoop take body (M.transitions.length + 1) i queue = .ok (queue ++ l.flatMap f) := by
  refine take_loop l _ i queue ?_ ?_ (block_fuel hb)
  · intro k a hka
    have ham := (hl a).mp (List.mem_of_getElem? hka)
    obtain ⟨t, ht, e1, e2, e3, e4⟩ := hb.1 k a hka
    refine ⟨⟨pos a.target, a.output, a.weight⟩, ?_, known_output hS hq ham.1, fun queue => hbody _ queue a ham.1 ham.2⟩
    rw [htake]
    unfold Machine.takeSymbol
    rw [table_get hR.transSize ht]
    dsimp only
    have e4 : M.transWeight t = a.weight := e4
    rw [if_neg (by rw [e1, ham.2]; simp), e2, e3, e4]
  · obtain ⟨t, ht, h5⟩ := hb.2
    refine ⟨⟨0, noSymbol, 0⟩, ?_, rfl⟩
    rw [htake]
    unfold Machine.takeSymbol
    rw [table_get hR.transSize ht]
    dsimp only
    rw [if_pos h5]

theorem lexiconConsume_ok (hR : Represents S.lexicon n N pos) (hS : SymbolsOK S.lexicon.kinds n N) {input : List Nat}
    (hin : ∀ y ∈ input, IsInput S.lexicon.kinds n y) {x : SpellNode} {q : Nat} (hq : q < N.size) (hx : x.lexicon = pos q) :
    ∃ kids, (∀ queue, S.lexiconConsume input x queue = .ok (queue ++ kids)) ∧
      ∀ y, y ∈ kids ↔ ∃ a ∈ N.arcs q, input[x.input]? = some a.input ∧ y = x.update a.output (x.input + 1) x.mutator (pos a.target) a.weight := by
  unfold Speller.lexiconConsume
  rw [hx]
  cases hk : input[x.input]? with
  | none =>
    refine ⟨[], fun queue => by rw [List.append_nil], fun y => ⟨(fun h => nomatch h), ?_⟩⟩
    rintro ⟨a, _, h, _⟩
    cases h
  | some k =>
    dsimp only
    rcases state_symbol hR hq (hin k (List.mem_of_getElem? hk)) with ⟨h1, h2⟩ | ⟨i, l, h1, h2, h3, h4⟩
    · refine ⟨[], fun queue => ?_, fun y => ⟨(fun h => nomatch h), ?_⟩⟩
      · rw [h1, List.append_nil]
        rfl
      · rintro ⟨a, ha, h, _⟩
        injection h with h
        exact absurd h.symm (h2 a ha)
    · refine ⟨l.flatMap fun a => [x.update a.output (x.input + 1) x.mutator (pos a.target) a.weight], fun queue => ?_, ?_⟩
      · rw [h1, h2]
        show takeLoop _ _ _ i queue = _
        exact symbol_loop hR hS hq h3 h4 (fun _ _ _ _ _ => rfl) (fun _ => rfl) queue
      · intro y
        rw [List.mem_flatMap]
        constructor
        · rintro ⟨a, ha, hy⟩
          exact ⟨a, ((h3 a).mp ha).1, by rw [((h3 a).mp ha).2], List.mem_singleton.mp hy⟩
        · rintro ⟨a, ha, h, hy⟩
          injection h with h
          exact ⟨a, (h3 a).mpr ⟨ha, h.symm⟩, List.mem_singleton.mpr hy⟩

/-- The nodes if the lexicon reads what the error model writes. -/
theorem follow_ok (hR : Represents S.lexicon n N pos) (hS : SymbolsOK S.lexicon.kinds n N) {x : SpellNode} {q : Nat} (hq : q < N.size)
    (hx : x.lexicon = pos q) {t : Taken} {k : Nat} (ht : S.translator[t.symbol]? = some k) (hk : IsInput S.lexicon.kinds n k) (input : Nat) :
    ∃ kids, (∀ queue, S.follow x input t queue = .ok (queue ++ kids)) ∧
      ∀ y, y ∈ kids ↔ ∃ a ∈ N.arcs q, a.input = k ∧ y = x.update a.output input t.index (pos a.target) (a.weight + t.weight) := by
  unfold Speller.follow
  rw [hx, ht]
  dsimp only
  rcases state_symbol hR hq hk with ⟨h1, h2⟩ | ⟨i, l, h1, h2, h3, h4⟩
  · refine ⟨[], fun queue => ?_, fun y => ⟨(fun h => nomatch h), ?_⟩⟩
    · rw [h1, List.append_nil]
      rfl
    · rintro ⟨a, ha, h, _⟩
      exact absurd h (h2 a ha)
  · refine ⟨l.flatMap fun a => [x.update a.output input t.index (pos a.target) (a.weight + t.weight)], fun queue => ?_, ?_⟩
    · rw [h1, h2]
      show takeLoop _ _ _ i queue = _
      exact symbol_loop hR hS hq h3 h4 (fun _ _ _ _ _ => rfl) (fun _ => rfl) queue
    · intro y
      rw [List.mem_flatMap]
      constructor
      · rintro ⟨a, ha, hy⟩
        exact ⟨a, ((h3 a).mp ha).1, ((h3 a).mp ha).2, List.mem_singleton.mp hy⟩
      · rintro ⟨a, ha, h, hy⟩
        exact ⟨a, (h3 a).mpr ⟨ha, h⟩, List.mem_singleton.mpr hy⟩

end

section
variable {S : Speller} {n n' : Inputs} {E L : Net} {pos pos' : Nat → Nat}

/-- What the error model writes can be looked up in the lexicon. -/
def Translates (S : Speller) (n' : Inputs) (E : Net) : Prop :=
  ∀ p < E.size, ∀ b ∈ E.arcs p, b.output ≠ 0 → ∃ k, S.translator[b.output]? = some k ∧ IsInput S.lexicon.kinds n' k

/-- The nodes that are made for a transition `b` of the error model. -/
def Kid (S : Speller) (L : Net) (pos pos' : Nat → Nat) (x : SpellNode) (q input : Nat) (b : NArc) (y : SpellNode) : Prop :=
  (b.output = 0 ∧ y = x.update 0 input (pos b.target) (pos' q) b.weight) ∨
  (b.output ≠ 0 ∧ ∃ a ∈ L.arcs q, S.translator[b.output]? = some a.input ∧
    y = x.update a.output input (pos b.target) (pos' a.target) (a.weight + b.weight))

/-- What is done with a transition of the error model. -/
theorem mutate_ok (hR' : Represents S.lexicon n' L pos') (hS' : SymbolsOK S.lexicon.kinds n' L) (hT : Translates S n' E) {x : SpellNode} {p q : Nat}
    (hp : p < E.size) (hq : q < L.size) (hx : x.lexicon = pos' q) {b : NArc} (hb : b ∈ E.arcs p) (input : Nat) :
    ∃ kids, (∀ queue, (if b.output = 0 then Outcome.ok (queue ++ [x.update b.output input (pos b.target) x.lexicon b.weight])
        else S.follow x input ⟨pos b.target, b.output, b.weight⟩ queue) = .ok (queue ++ kids)) ∧
      ∀ y, y ∈ kids ↔ Kid S L pos pos' x q input b y := by
  by_cases h0 : b.output = 0
  · refine ⟨[x.update 0 input (pos b.target) (pos' q) b.weight], fun queue => by rw [if_pos h0, h0, hx], fun y => ?_⟩
    rw [List.mem_singleton]
    constructor
    · exact fun h => .inl ⟨h0, h⟩
    · rintro (h | h)
      · exact h.2
      · exact absurd h0 h.1
  · obtain ⟨k, hk, hin⟩ := hT p hp b hb h0
    obtain ⟨kids, h1, h2⟩ := follow_ok hR' hS' (x := x) hq hx (t := ⟨pos b.target, b.output, b.weight⟩) hk hin input
    refine ⟨kids, fun queue => by rw [if_neg h0]; exact h1 queue, fun y => ?_⟩
    rw [h2]
    constructor
    · rintro ⟨a, ha, h, hy⟩
      exact .inr ⟨h0, a, ha, by rw [h]; exact hk, hy⟩
    · rintro (h | ⟨_, a, ha, h, hy⟩)
      · exact absurd h.1 h0
      · rw [hk] at h
        injection h with h
        exact ⟨a, ha, h.symm, hy⟩

open Classical in
theorem mutatorEpsilons_ok (hR : Represents S.mutator n E pos) (hS : SymbolsOK S.mutator.kinds n E)
    (hF : ∀ p < E.size, ∀ b ∈ E.arcs p, ¬ S.mutator.kinds.Flag b.input)
    (hR' : Represents S.lexicon n' L pos') (hS' : SymbolsOK S.lexicon.kinds n' L) (hT : Translates S n' E) {x : SpellNode} {p q : Nat}
    (hp : p < E.size) (hq : q < L.size) (hm : x.mutator = pos p) (hx : x.lexicon = pos' q) :
    ∃ kids, (∀ queue, S.mutatorEpsilons x queue = .ok (queue ++ kids)) ∧
      ∀ y, y ∈ kids ↔ ∃ b ∈ E.arcs p, b.input = 0 ∧ Kid S L pos pos' x q x.input b y := by
  have hmut := fun (b : NArc) (hb : b ∈ E.arcs p) => mutate_ok (pos := pos) hR' hS' hT hp hq hx hb x.input
  unfold Speller.mutatorEpsilons
  rw [hm]
  rcases state_zero hR hF hp with ⟨h1, h2⟩ | ⟨i, l, h1, h2, h3, h4⟩
  · refine ⟨[], fun queue => ?_, fun y => ⟨(fun h => nomatch h), ?_⟩⟩
    · rw [h1, List.append_nil]
      rfl
    · rintro ⟨b, hb, h, _⟩
      exact absurd h (h2 b hb)
  · refine ⟨l.flatMap fun b => if h : b ∈ E.arcs p then (hmut b h).choose else [], fun queue => ?_, ?_⟩
    · rw [h1, h2]
      show takeLoop _ _ _ i queue = _
      refine symbol_loop hR hS hp h3 h4 (fun i queue b hb h0 => ?_) (fun i => ?_) queue
      · rw [dif_pos hb]
        exact (hmut b hb).choose_spec.1 queue
      · unfold Machine.takeEpsilons Machine.takeSymbol
        rfl
    · intro y
      rw [List.mem_flatMap]
      constructor
      · rintro ⟨b, hb, hy⟩
        rw [dif_pos ((h3 b).mp hb).1] at hy
        exact ⟨b, ((h3 b).mp hb).1, ((h3 b).mp hb).2, ((hmut b ((h3 b).mp hb).1).choose_spec.2 y).mp hy⟩
      · rintro ⟨b, hb, h0, hy⟩
        refine ⟨b, (h3 b).mpr ⟨hb, h0⟩, ?_⟩
        rw [dif_pos hb]
        exact ((hmut b hb).choose_spec.2 y).mpr hy

open Classical in
theorem consumeInput_ok (hR : Represents S.mutator n E pos) (hS : SymbolsOK S.mutator.kinds n E)
    (hR' : Represents S.lexicon n' L pos') (hS' : SymbolsOK S.lexicon.kinds n' L) (hT : Translates S n' E) {input : List Nat}
    (hin : ∀ y ∈ input, IsInput S.mutator.kinds n y) {x : SpellNode} {p q : Nat}
    (hp : p < E.size) (hq : q < L.size) (hm : x.mutator = pos p) (hx : x.lexicon = pos' q) :
    ∃ kids, (∀ queue, S.consumeInput input x queue = .ok (queue ++ kids)) ∧
      ∀ y, y ∈ kids ↔ ∃ b ∈ E.arcs p, input[x.input]? = some b.input ∧ Kid S L pos pos' x q (x.input + 1) b y := by
  have hmut := fun (b : NArc) (hb : b ∈ E.arcs p) => mutate_ok (pos := pos) hR' hS' hT hp hq hx hb (x.input + 1)
  unfold Speller.consumeInput
  rw [hm]
  cases hk : input[x.input]? with
  | none =>
    refine ⟨[], fun queue => by rw [List.append_nil], fun y => ⟨(fun h => nomatch h), ?_⟩⟩
    rintro ⟨a, _, h, _⟩
    cases h
  | some k =>
    dsimp only
    rcases state_symbol hR hp (hin k (List.mem_of_getElem? hk)) with ⟨h1, h2⟩ | ⟨i, l, h1, h2, h3, h4⟩
    · refine ⟨[], fun queue => ?_, fun y => ⟨(fun h => nomatch h), ?_⟩⟩
      · rw [h1, List.append_nil]
        rfl
      · rintro ⟨b, hb, h, _⟩
        injection h with h
        exact absurd h.symm (h2 b hb)
    · refine ⟨l.flatMap fun b => if h : b ∈ E.arcs p then (hmut b h).choose else [], fun queue => ?_, ?_⟩
      · rw [h1, h2]
        show takeLoop _ _ _ i queue = _
        refine symbol_loop hR hS hp h3 h4 (fun i queue b hb h0 => ?_) (fun i => rfl) queue
        rw [dif_pos hb]
        rw [← (hmut b hb).choose_spec.1 queue]
        by_cases h0 : b.output = 0
        · dsimp only
          rw [if_pos h0, if_pos h0, h0]
        · dsimp only
          rw [if_neg h0, if_neg h0]
      · intro y
        rw [List.mem_flatMap]
        constructor
        · rintro ⟨b, hb, hy⟩
          rw [dif_pos ((h3 b).mp hb).1] at hy
          exact ⟨b, ((h3 b).mp hb).1, by rw [((h3 b).mp hb).2], ((hmut b ((h3 b).mp hb).1).choose_spec.2 y).mp hy⟩
        · rintro ⟨b, hb, h0, hy⟩
          injection h0 with h0
          refine ⟨b, (h3 b).mpr ⟨hb, h0.symm⟩, ?_⟩
          rw [dif_pos hb]
          exact ((hmut b hb).choose_spec.2 y).mpr hy

end

end Hfst.Ol
