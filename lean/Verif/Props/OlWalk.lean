import Verif.Spec.OlWalk
import Verif.Lemmas.Graph

/-!
# Walking through the tables finds the transitions
-/
namespace Hfst.Ol
open Hfst.Basic

theorem mem_placeInsert {x y : Nat} : ∀ {l : List Nat}, y ∈ placeInsert x l ↔ y = x ∨ y ∈ l
  | [] => by simp [placeInsert]
  | z :: zs => by
    unfold placeInsert
    split
    · simp
    · split
      · rename_i h
        subst h
        simp
      · simp only [List.mem_cons, mem_placeInsert (l := zs)]
        constructor
        · rintro (h | h | h)
          · exact .inr (.inl h)
          · exact .inl h
          · exact .inr (.inr h)
        · rintro (h | h | h)
          · exact .inr (.inl h)
          · exact .inl h
          · exact .inr (.inr h)

/-- The common form of the three loops. -/
def walk (M : Machine) (p stop : Trans → Bool) : Nat → Nat → List Nat → Outcome (List Nat)
  | 0, _, _ => .undefined
  | n + 1, i, acc => match tableGet M.transitions i with
    | none => .undefined
    | some t => if p t then walk M p stop n (i + 1) (placeInsert i acc) else if stop t then .ok acc else walk M p stop n (i + 1) acc

theorem walkSymbol_eq (M : Machine) (x : Nat) : ∀ (n i : Nat) (acc : List Nat),
    walkSymbol M x n i acc = walk M (fun t => decide (t.input ≠ noSymbol ∧ t.input = x)) (fun _ => true) n i acc
  | 0, _, _ => rfl
  | n + 1, i, acc => by
    unfold walkSymbol walk
    cases tableGet M.transitions i with
    | none => rfl
    | some t =>
      dsimp only
      by_cases h : t.input ≠ noSymbol ∧ t.input = x
      · rw [if_pos h, if_pos (by simpa using h), walkSymbol_eq M x n]
      · rw [if_neg h, if_neg (by simpa using h), if_pos rfl]

theorem walkAll_eq (M : Machine) : ∀ (n i : Nat) (acc : List Nat),
    walkAll M n i acc = walk M (fun t => decide (t.input ≠ noSymbol)) (fun _ => true) n i acc
  | 0, _, _ => rfl
  | n + 1, i, acc => by
    unfold walkAll walk
    cases tableGet M.transitions i with
    | none => rfl
    | some t =>
      dsimp only
      by_cases h : t.input ≠ noSymbol
      · rw [if_pos h, if_pos (by simpa using h), walkAll_eq M n]
      · rw [if_neg h, if_neg (by simpa using h), if_pos rfl]

theorem walkFree_eq (M : Machine) (x : Nat) : ∀ (n i : Nat) (acc : List Nat),
    walkFree M x n i acc = walk M (fun t => decide (t.input ≠ noSymbol ∧ t.input = x))
      (fun t => decide (t.input ≠ 0 ∧ likeEpsilon M t.input = false)) n i acc
  | 0, _, _ => rfl
  | n + 1, i, acc => by
    unfold walkFree walk
    cases tableGet M.transitions i with
    | none => rfl
    | some t =>
      dsimp only
      simp only [decide_eq_true_eq, walkFree_eq M x n]

/-- Where the loop ends and what it collects. -/
theorem walk_ok {M : Machine} {p stop : Trans → Bool} : ∀ (len n j : Nat) (acc : List Nat), len < n →
    (∀ k < len, ∃ t, M.transitions[j + k]? = some t ∧ (p t = true ∨ stop t = false)) →
    (∃ t, M.transitions[j + len]? = some t ∧ p t = false ∧ stop t = true) →
    ∃ l, walk M p stop n (targetStart + j) acc = .ok l ∧
      ∀ y, y ∈ l ↔ y ∈ acc ∨ ∃ k < len, ∃ t, y = targetStart + (j + k) ∧ M.transitions[j + k]? = some t ∧ p t = true
  | len, 0, _, _, hn, _, _ => by omega
  | len, n + 1, j, acc, hn, hall, hend => by
    have hget : tableGet M.transitions (targetStart + j) = M.transitions[j]? := by
      unfold tableGet
      rw [if_neg (by omega), Nat.add_sub_cancel_left]
    unfold walk
    rw [hget]
    cases len with
    | zero =>
      obtain ⟨t, h1, h2, h3⟩ := hend
      rw [show j + 0 = j from rfl] at h1
      rw [h1]
      dsimp only
      rw [if_neg (by rw [h2]; simp), if_pos h3]
      exact ⟨acc, rfl, fun y => ⟨.inl, fun h => h.elim id fun ⟨k, hk, _⟩ => by omega⟩⟩
    | succ len =>
      obtain ⟨t, h1, h2⟩ := hall 0 (by omega)
      rw [show j + 0 = j from rfl] at h1
      rw [h1]
      dsimp only
      have ih := fun acc => walk_ok (M := M) (p := p) (stop := stop) len n (j + 1) acc (by omega)
        (fun k hk => by rw [show j + 1 + k = j + (k + 1) by omega]; exact hall (k + 1) (by omega))
        (by rw [show j + 1 + len = j + (len + 1) by omega]; exact hend)
      rw [show targetStart + (j + 1) = targetStart + j + 1 by omega] at ih
      by_cases hp : p t = true
      · rw [if_pos hp]
        obtain ⟨l, e1, e2⟩ := ih (placeInsert (targetStart + j) acc)
        refine ⟨l, e1, fun y => ?_⟩
        rw [e2, mem_placeInsert]
        constructor
        · rintro ((rfl | h) | ⟨k, hk, t', h⟩)
          · exact .inr ⟨0, by omega, t, rfl, h1, hp⟩
          · exact .inl h
          · refine .inr ⟨k + 1, by omega, t', ?_⟩
            rw [show j + (k + 1) = j + 1 + k by omega]
            exact h
        · rintro (h | ⟨k, hk, t', h⟩)
          · exact .inl (.inr h)
          · cases k with
            | zero => exact .inl (.inl h.1)
            | succ k =>
              refine .inr ⟨k, by omega, t', ?_⟩
              rw [show j + 1 + k = j + (k + 1) by omega]
              exact h
      · rw [if_neg hp, if_neg (by rcases h2 with h2 | h2; exact absurd h2 hp; rw [h2]; simp)]
        obtain ⟨l, e1, e2⟩ := ih acc
        refine ⟨l, e1, fun y => ?_⟩
        rw [e2]
        constructor
        · rintro (h | ⟨k, hk, t', h⟩)
          · exact .inl h
          · refine .inr ⟨k + 1, by omega, t', ?_⟩
            rw [show j + (k + 1) = j + 1 + k by omega]
            exact h
        · rintro (h | ⟨k, hk, t', h⟩)
          · exact .inl h
          · cases k with
            | zero =>
              rw [show j + 0 = j from rfl, h1] at h
              obtain ⟨_, h, h'⟩ := h
              injection h with h
              rw [← h] at h'
              exact absurd h' hp
            | succ k =>
              refine .inr ⟨k, by omega, t', ?_⟩
              rw [show j + 1 + k = j + (k + 1) by omega]
              exact h

section
variable {M : Machine} {n : Inputs} {N : Net} {pos : Nat → Nat} {count : Nat}

/-- The place `k` has an entry for the transition `a`. -/
def At (M : Machine) (pos : Nat → Nat) (k : Nat) (a : NArc) : Prop :=
  ∃ t, targetStart ≤ k ∧ M.transitions[k - targetStart]? = some t ∧ IsEntry M pos t a

theorem likeEpsilon_iff (hw : Walkable M n N pos count) (x : Nat) : likeEpsilon M x = true ↔ M.kinds.Flag x := by
  unfold likeEpsilon Kinds.Flag
  rw [Bool.or_eq_true, Option.isSome_iff_exists]
  refine ⟨fun h => ?_, .inl⟩
  rcases h with h | h
  · exact h
  · split at h
    · cases h
    · rename_i s hs
      rw [hw.insertion x s hs, Bool.and_false] at h
      cases h

/-- The loop over a block of entries, with a condition on the transitions. -/
theorem walk_block {p stop : Trans → Bool} {j : Nat} {l : List NArc} {s : Trans → Prop} (hb : Block M pos j l s)
    (hall : ∀ a ∈ l, ∀ t, IsEntry M pos t a → p t = true ∨ stop t = false) (hend : ∀ t, s t → p t = false ∧ stop t = true) (acc : List Nat) :
    ∃ r, walk M p stop (M.transitions.length + 1) (targetStart + j) acc = .ok r ∧ (∀ y ∈ acc, y ∈ r) ∧
      (∀ y ∈ r, y ∈ acc ∨ ∃ a ∈ l, At M pos y a) ∧
      ∀ a ∈ l, (∀ t, IsEntry M pos t a → p t = true) → ∃ y ∈ r, At M pos y a := by
  obtain ⟨h1, t, h2, h3⟩ := hb
  have hlt := (List.getElem?_eq_some_iff.mp h2).1
  obtain ⟨r, e1, e2⟩ := walk_ok (M := M) (p := p) (stop := stop) l.length (M.transitions.length + 1) j acc (by omega)
    (fun k hk => by
      obtain ⟨t, h4, h5⟩ := h1 k _ (List.getElem?_eq_getElem hk)
      exact ⟨t, h4, hall _ (List.getElem_mem hk) t h5⟩)
    ⟨t, h2, hend t h3⟩
  refine ⟨r, e1, (fun y hy => (e2 y).mpr (.inl hy)), ?_, ?_⟩
  · intro y hy
    rcases (e2 y).mp hy with h | ⟨k, hk, t', rfl, h4, h5⟩
    · exact .inl h
    · obtain ⟨t'', h6, h7⟩ := h1 k _ (List.getElem?_eq_getElem hk)
      refine .inr ⟨_, List.getElem_mem hk, t'', by omega, ?_, h7⟩
      rw [Nat.add_sub_cancel_left]
      exact h6
  · intro a ha hp
    obtain ⟨k, hk⟩ := List.mem_iff_getElem?.mp ha
    have hk' := (List.getElem?_eq_some_iff.mp hk).1
    obtain ⟨t', h6, h7⟩ := h1 k a hk
    refine ⟨targetStart + (j + k), (e2 _).mpr (.inr ⟨k, hk', t', rfl, h6, hp t' h7⟩), t', by omega, ?_, h7⟩
    rw [Nat.add_sub_cancel_left]
    exact h6

/-- What one round of the loop over the symbols does: it adds only places of transitions of the state, and all that read `x`. -/
def Round (M : Machine) (N : Net) (pos : Nat → Nat) (q x : Nat) (acc r : List Nat) : Prop :=
  (∀ y ∈ acc, y ∈ r) ∧ (∀ y ∈ r, y ∈ acc ∨ ∃ a ∈ N.arcs q, At M pos y a) ∧
    ∀ a ∈ N.arcs q, a.input = x → ∃ y ∈ r, At M pos y a

theorem round_none {q x : Nat} (h : ∀ a ∈ N.arcs q, a.input ≠ x) (acc : List Nat) : Round M N pos q x acc acc :=
  ⟨(fun _ h => h), (fun _ h => .inl h), fun a ha hx => absurd hx (h a ha)⟩

/-- The entries of a block that read epsilon come first. -/
theorem sorted_block (hw : Walkable M n N pos count) (h0 : ¬ M.kinds.Flag 0) {j : Nat} {l : List NArc} {s : Trans → Prop} (hb : Block M pos j l s)
    (hfree : ∀ a ∈ l, M.kinds.Free a) (hs : ∀ t, s t → t.input ≠ 0) :
    ∃ l', Block M pos j l' (fun t => t.input ≠ 0) ∧ ∀ a, a ∈ l' ↔ a ∈ l ∧ a.input = 0 := by
  induction l generalizing j with
  | nil =>
    obtain ⟨h1, t, h2, h3⟩ := hb
    exact ⟨[], ⟨h1, t, h2, hs t h3⟩, by simp⟩
  | cons a l ih =>
    obtain ⟨h1, t, h2, h3⟩ := hb
    have hb' : Block M pos (j + 1) l s := by
      refine ⟨fun k b hk => ?_, t, ?_, h3⟩
      · rw [show j + 1 + k = j + (k + 1) by omega]
        exact h1 (k + 1) b hk
      · rw [show j + 1 + l.length = j + (l.length + 1) by omega]
        exact h2
    obtain ⟨t0, e0, f0⟩ := h1 0 a rfl
    rw [show j + 0 = j from rfl] at e0
    by_cases ha : a.input = 0
    · obtain ⟨l', g1, g2⟩ := ih hb' fun b hb => hfree b (List.mem_cons_of_mem _ hb)
      refine ⟨a :: l', ⟨?_, ?_⟩, ?_⟩
      · intro k b hk
        cases k with
        | zero =>
          injection hk with hk
          subst hk
          exact ⟨t0, e0, f0⟩
        | succ k =>
          rw [show j + (k + 1) = j + 1 + k by omega]
          exact g1.1 k b hk
      · obtain ⟨t', g3, g4⟩ := g1.2
        refine ⟨t', ?_, g4⟩
        rw [List.length_cons, show j + (l'.length + 1) = j + 1 + l'.length by omega]
        exact g3
      · intro b
        rw [List.mem_cons, List.mem_cons, g2]
        constructor
        · rintro (rfl | ⟨h, h'⟩)
          · exact ⟨.inl rfl, ha⟩
          · exact ⟨.inr h, h'⟩
        · rintro ⟨rfl | h, h'⟩
          · exact .inl rfl
          · exact .inr ⟨h, h'⟩
    · have hflag : ∀ b ∈ a :: l, M.kinds.Flag b.input := by
        have hfl : M.kinds.Flag a.input := (hfree a (List.mem_cons_self ..)).resolve_left ha
        have key : ∀ (k : Nat) (b : NArc), (a :: l)[k]? = some b → M.kinds.Flag b.input := by
          intro k
          induction k with
          | zero =>
            intro b hb
            injection hb with hb
            exact hb ▸ hfl
          | succ k ih =>
            intro b hb
            have hlt := (List.getElem?_eq_some_iff.mp hb).1
            obtain ⟨t1, u1, v1⟩ := h1 k _ (List.getElem?_eq_getElem (by omega))
            obtain ⟨t2, u2, v2⟩ := h1 (k + 1) b hb
            have := hw.sorted _ _ _ u1 u2 (by rw [v1.1]; exact ih _ (List.getElem?_eq_getElem (by omega)))
            rw [v2.1] at this
            exact (hfree b (List.mem_of_getElem? hb)).resolve_left this
        intro b hb
        obtain ⟨k, hk⟩ := List.mem_iff_getElem?.mp hb
        exact key k b hk
      refine ⟨[], ⟨(fun k b hk => by cases hk), t0, e0, fun h => ha (f0.1.symm.trans h)⟩, ?_⟩
      intro b
      refine ⟨(fun h => by cases h), fun ⟨h, h'⟩ => ?_⟩
      exact absurd (h' ▸ hflag b h) h0

theorem walkSymbols_cons {P : List Nat → Prop} (M : Machine) (i x : Nat) (xs acc : List Nat) : (∃ r, walkSymbols M i (x :: xs) acc = walkSymbols M i xs r ∧ P r) ↔
    ∃ r, (if likeEpsilon M x then
      match tableGet M.indices (i + 1) with
      | none => .undefined
      | some e =>
        if e.input ≠ noSymbol ∧ e.input = 0 then
          (walkFree M x (M.transitions.length + 1) e.target acc).bind (walkSymbols M i xs)
        else walkSymbols M i xs acc
    else
      match tableGet M.indices (i + 1 + x) with
      | none => .undefined
      | some e =>
        if e.input ≠ noSymbol ∧ e.input = x then
          (walkSymbol M e.input (M.transitions.length + 1) e.target acc).bind (walkSymbols M i xs)
        else walkSymbols M i xs acc) = walkSymbols M i xs r ∧ P r := Iff.rfl

/-- One round of the loop over the symbols. -/
theorem round_ok (hR : Represents M n N pos) (hS : SymbolsOK M.kinds n N) (hw : Walkable M n N pos count) {q : Nat} (hq : q < N.size)
    (hI : InIndex M n N pos q) {x : Nat} (hx : x < count) (xs acc : List Nat) :
    ∃ r, walkSymbols M (pos q) (x :: xs) acc = walkSymbols M (pos q) xs r ∧ Round M N pos q x acc r := by
  have hidx : ∀ {i : Nat} {e : Index}, M.indices[i]? = some e → tableGet M.indices i = some e := by
    intro i e h
    have := (List.getElem?_eq_some_iff.mp h).1
    have := hR.indexSize
    unfold tableGet
    rw [if_pos (by omega)]
    exact h
  have hno : ∀ a ∈ N.arcs q, a.input ≠ noSymbol := by
    intro a ha h
    have := (hS.known q hq a ha).1
    have := hS.small
    omega
  have hentry : ∀ {t : Trans} {a : NArc}, a ∈ N.arcs q → IsEntry M pos t a → t.input ≠ noSymbol := by
    intro t a ha h
    rw [h.1]
    exact hno a ha
  rw [walkSymbols_cons]
  by_cases hf : M.kinds.Flag x
  · rw [if_pos ((likeEpsilon_iff hw x).mpr hf)]
    obtain ⟨e, h1, h2⟩ := hI.free
    rw [hidx h1]
    dsimp only
    rcases h2 with ⟨h2, h3⟩ | ⟨h2, h3, l, _, h5, h6⟩
    · rw [if_neg fun h => h2 h.2]
      exact ⟨acc, rfl, round_none (fun a ha he => h3 a ha (.inr (he ▸ hf))) acc⟩
    · rw [if_pos ⟨by rw [h2]; decide, h2⟩, walkFree_eq]
      obtain ⟨r, g1, g2, g3, g4⟩ := walk_block (p := fun t => decide (t.input ≠ noSymbol ∧ t.input = x))
        (stop := fun t => decide (t.input ≠ 0 ∧ likeEpsilon M t.input = false)) h6 (by
          intro a ha t ht
          refine .inr (decide_eq_false ?_)
          rintro ⟨h7, h8⟩
          rcases ((h5 a).mp ha).2 with h9 | h9
          · exact h7 (ht.1.trans h9)
          · rw [← ht.1] at h9
            rw [(likeEpsilon_iff hw _).mpr h9] at h8
            cases h8) (by
          rintro t ⟨h7, h8⟩
          refine ⟨decide_eq_false fun h => h8 (h.2 ▸ hf), decide_eq_true ⟨h7, ?_⟩⟩
          cases hl : likeEpsilon M t.input with
          | false => rfl
          | true => exact absurd ((likeEpsilon_iff hw _).mp hl) h8) acc
      rw [show targetStart + (e.target - targetStart) = e.target by omega] at g1
      rw [g1]
      refine ⟨r, rfl, g2, ?_, ?_⟩
      · intro y hy
        rcases g3 y hy with h | ⟨a, ha, h⟩
        · exact .inl h
        · exact .inr ⟨a, ((h5 a).mp ha).1, h⟩
      · intro a ha hax
        exact g4 a ((h5 a).mpr ⟨ha, .inr (hax ▸ hf)⟩) fun t ht => decide_eq_true ⟨hentry ha ht, ht.1.trans hax⟩
  · rw [if_neg (fun h => hf ((likeEpsilon_iff hw x).mp h))]
    rcases hw.symbol x hx with rfl | h | hin
    · obtain ⟨e, h1, h2⟩ := hI.free
      rw [hidx h1]
      dsimp only
      rcases h2 with ⟨h2, h3⟩ | ⟨h2, h3, l, _, h5, h6⟩
      · rw [if_neg fun h => h2 h.2]
        exact ⟨acc, rfl, round_none (fun a ha he => h3 a ha (.inl he)) acc⟩
      · obtain ⟨l', f1, f2⟩ := sorted_block hw hS.epsilon h6 (fun a ha => ((h5 a).mp ha).2) fun t ht => ht.1
        rw [if_pos ⟨by rw [h2]; decide, h2⟩, walkSymbol_eq, h2]
        obtain ⟨r, g1, g2, g3, g4⟩ := walk_block (p := fun t => decide (t.input ≠ noSymbol ∧ t.input = 0)) (stop := fun _ => true) f1 (by
            intro a ha t ht
            obtain ⟨h7, h8⟩ := (f2 a).mp ha
            exact .inl (decide_eq_true ⟨hentry ((h5 a).mp h7).1 ht, ht.1.trans h8⟩)) (by
            intro t ht
            exact ⟨decide_eq_false fun h => ht h.2, rfl⟩) acc
        rw [show targetStart + (e.target - targetStart) = e.target by omega] at g1
        rw [g1]
        refine ⟨r, rfl, g2, ?_, ?_⟩
        · intro y hy
          rcases g3 y hy with h | ⟨a, ha, h⟩
          · exact .inl h
          · exact .inr ⟨a, ((h5 a).mp ((f2 a).mp ha).1).1, h⟩
        · intro a ha hax
          exact g4 a ((f2 a).mpr ⟨(h5 a).mpr ⟨ha, .inl hax⟩, hax⟩) fun t ht => decide_eq_true ⟨hentry ha ht, ht.1.trans hax⟩
    · exact absurd h hf
    · obtain ⟨e, h1, h2⟩ := hI.symbol x hin
      rw [hidx h1]
      dsimp only
      rcases h2 with ⟨h2, h3⟩ | ⟨h2, h3, l, _, h5, h6⟩
      · rw [if_neg fun h => h2 h.2]
        exact ⟨acc, rfl, round_none (fun a ha he => h3 a ha he) acc⟩
      · rw [if_pos ⟨by rw [h2]; exact hin.2.1, h2⟩, walkSymbol_eq, h2]
        obtain ⟨r, g1, g2, g3, g4⟩ := walk_block (p := fun t => decide (t.input ≠ noSymbol ∧ t.input = x)) (stop := fun _ => true) h6 (by
            intro a ha t ht
            obtain ⟨h7, h8⟩ := (h5 a).mp ha
            exact .inl (decide_eq_true ⟨hentry h7 ht, ht.1.trans h8⟩)) (by
            intro t ht
            exact ⟨decide_eq_false fun h => ht h.2, rfl⟩) acc
        rw [show targetStart + (e.target - targetStart) = e.target by omega] at g1
        rw [g1]
        refine ⟨r, rfl, g2, ?_, ?_⟩
        · intro y hy
          rcases g3 y hy with h | ⟨a, ha, h⟩
          · exact .inl h
          · exact .inr ⟨a, ((h5 a).mp ha).1, h⟩
        · intro a ha hax
          exact g4 a ((h5 a).mpr ⟨ha, hax⟩) fun t ht => decide_eq_true ⟨hentry ha ht, ht.1.trans hax⟩

theorem rounds_ok (hR : Represents M n N pos) (hS : SymbolsOK M.kinds n N) (hw : Walkable M n N pos count) {q : Nat} (hq : q < N.size)
    (hI : InIndex M n N pos q) : ∀ (xs acc : List Nat), (∀ x ∈ xs, x < count) →
    ∃ r, walkSymbols M (pos q) xs acc = .ok r ∧ (∀ y ∈ acc, y ∈ r) ∧ (∀ y ∈ r, y ∈ acc ∨ ∃ a ∈ N.arcs q, At M pos y a) ∧
      ∀ a ∈ N.arcs q, a.input ∈ xs → ∃ y ∈ r, At M pos y a
  | [], acc, _ => ⟨acc, rfl, (fun _ h => h), (fun _ h => .inl h), fun a _ h => by cases h⟩
  | x :: xs, acc, hxs => by
    obtain ⟨r, h1, h2, h3, h4⟩ := round_ok hR hS hw hq hI (hxs x (List.mem_cons_self ..)) xs acc
    obtain ⟨r', g1, g2, g3, g4⟩ := rounds_ok hR hS hw hq hI xs r fun y hy => hxs y (List.mem_cons_of_mem _ hy)
    refine ⟨r', h1.trans g1, (fun y hy => g2 y (h2 y hy)), ?_, ?_⟩
    · intro y hy
      rcases g3 y hy with h | h
      · exact h3 y h
      · exact .inr h
    · intro a ha hax
      rcases List.mem_cons.mp hax with hax | hax
      · obtain ⟨y, hy, h⟩ := h4 a ha hax
        exact ⟨y, g2 y hy, h⟩
      · exact g4 a ha hax

/-- The transitions of a state are found. -/
theorem transitionsFrom_ok (hR : Represents M n N pos) (hS : SymbolsOK M.kinds n N) (hw : Walkable M n N pos count) {q : Nat} (hq : q < N.size) :
    ∃ l, transitionsFrom M count (pos q) = .ok l ∧ Lists M N pos q l := by
  unfold transitionsFrom
  rcases hR.placed q hq with hI | hT
  · rw [if_pos hI.low]
    obtain ⟨r, h1, _, h3, h4⟩ := rounds_ok hR hS hw hq hI (List.range count) [] fun x hx => List.mem_range.mp hx
    refine ⟨r, h1, ?_, ?_⟩
    · intro k hk
      rcases h3 k hk with h | ⟨a, ha, h⟩
      · cases h
      · exact ⟨a, ha, h⟩
    · intro a ha
      exact h4 a ha (List.mem_range.mpr (hw.input q hq a ha))
  · have hh := hT.high
    rw [if_neg (by omega)]
    obtain ⟨t, h1, h2, h3⟩ := hw.marker q hq hh
    have : tableGet M.transitions (pos q) = some t := by
      unfold tableGet
      rw [if_neg (by omega)]
      exact h1
    rw [this]
    dsimp only
    rw [if_neg (by rw [h2, h3]; simp), walkAll_eq]
    obtain ⟨l, h5, h6⟩ := hT.block
    have hno : ∀ a ∈ l, a.input ≠ noSymbol := by
      intro a ha h
      have := (hS.known q hq a ((h5 a).mp ha)).1
      have := hS.small
      omega
    obtain ⟨r, g1, _, g3, g4⟩ := walk_block (p := fun t => decide (t.input ≠ noSymbol)) (stop := fun _ => true) h6
      (fun a ha t ht => .inl (decide_eq_true (by rw [ht.1]; exact hno a ha)))
      (fun t ht => ⟨decide_eq_false fun h => h ht, rfl⟩) []
    rw [show targetStart + (pos q - targetStart + 1) = pos q + 1 by omega] at g1
    refine ⟨r, g1, ?_, ?_⟩
    · intro k hk
      rcases g3 k hk with h | ⟨a, ha, h⟩
      · cases h
      · exact ⟨a, (h5 a).mp ha, h⟩
    · intro a ha
      exact g4 a ((h5 a).mpr ha) fun t ht => decide_eq_true (by rw [ht.1]; exact hno a ((h5 a).mpr ha))

end

end Hfst.Ol
