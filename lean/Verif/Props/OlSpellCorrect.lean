import Verif.Props.OlSpellRun

/-!
# Corrections of the spell checker (C42)
-/
namespace Hfst.Ol
open Hfst.Basic

/-- The names of symbols, one after the other. -/
def nameText (table : List Bytes) (xs : List Nat) : Bytes := xs.flatMap fun x => (table[x]?).getD []

theorem stringify_ok {S : Speller} : ∀ (xs : List Nat), (∀ x ∈ xs, x < S.lexicon.alphabet.table.length) →
    S.stringify xs = .ok (nameText S.lexicon.alphabet.table xs)
  | [], _ => rfl
  | x :: xs, h => by
    have hx := h x (List.mem_cons_self ..)
    rw [Speller.stringify, List.getElem?_eq_getElem hx]
    dsimp only
    rw [stringify_ok xs fun y hy => h y (List.mem_cons_of_mem _ hy)]
    show Outcome.ok _ = _
    unfold nameText
    rw [List.flatMap_cons, List.getElem?_eq_getElem hx]
    rfl

section
variable {S : Speller} {n n' : Inputs} {E L : Net} {pos pos' : Nat → Nat} {input : List Nat}

/-- The error model can be used together with the lexicon. -/
structure Correctable (S : Speller) (n n' : Inputs) (E L : Net) (pos pos' : Nat → Nat) : Prop where
  lexicon : Searchable S n' L pos'
  tables : Represents S.mutator n E pos
  symbols : SymbolsOK S.mutator.kinds n E
  injective : ∀ q < E.size, ∀ r < E.size, pos q = pos r → q = r
  default : S.mutator.alphabet.default = noSymbol
  noFlags : ∀ p < E.size, ∀ b ∈ E.arcs p, ¬ S.mutator.kinds.Flag b.input
  nodup : S.lexicon.alphabet.table.Nodup
  outputs : ∀ p < E.size, ∀ b ∈ E.arcs p, b.output ≠ 0 → ∃ k, S.translator[b.output]? = some k ∧ IsInput S.lexicon.kinds n' k ∧
    k < S.lexicon.orig ∧ k < S.lexicon.alphabet.table.length ∧ S.lexicon.alphabet.table[k]? = S.mutator.alphabet.table[b.output]?
  deletes : ∀ p < E.size, ∀ b ∈ E.arcs p, b.output = 0 → S.lexicon.alphabet.table[0]? = some []

/-- The node is about the states `p` and `q`. -/
structure CorrectAt (S : Speller) (E L : Net) (pos pos' : Nat → Nat) (input : List Nat) (p q : Nat) (x : SpellNode) : Prop where
  lexicon : CheckAt S L pos' input q x
  state : p < E.size
  mutator : x.mutator = pos p
  string : ∀ k ∈ x.string, k < S.lexicon.alphabet.table.length

/-- What can be suggested from a node. -/
def Suggests (S : Speller) (E L : Net) (input : List Nat) (p q : Nat) (x : SpellNode) (s : Bytes) (w : Int) : Prop :=
  ∃ m p' u l q' v, NRun S.mutator.kinds E p m p' ∧ E.final p' = some u ∧ readBy m = input.drop x.input ∧
    NRun S.lexicon.kinds L q l q' ∧ L.final q' = some v ∧
    (wroteBy m).map (fun x => S.mutator.alphabet.table[x]?) = (readBy l).map (fun x => S.lexicon.alphabet.table[x]?) ∧
    S.lexicon.fd.passes x.flags (l.map (·.1.input)) = some true ∧
    s = nameText S.lexicon.alphabet.table (x.string ++ l.map (·.1.output)) ∧ w = x.weight + (weightBy m + u + (weightBy l + v))

/-- The node itself is a suggestion. -/
def Suggestion (S : Speller) (E L : Net) (input : List Nat) (p q : Nat) (x : SpellNode) (s : Bytes) (w : Int) : Prop :=
  x.input = input.length ∧ ∃ u v, E.final p = some u ∧ L.final q = some v ∧ s = nameText S.lexicon.alphabet.table x.string ∧ w = x.weight + v + u

/-- What correcting appends to the queue for a node. -/
def correctKids (S : Speller) (input : List Nat) (x : SpellNode) : List SpellNode :=
  kidsOf (S.lexiconEpsilons x []) ++ kidsOf (S.mutatorEpsilons x []) ++ kidsOf (S.consumeInput input x [])

theorem nameText_zero {table : List Bytes} (h : table[0]? = some []) (xs ys : List Nat) : nameText table (xs ++ [0] ++ ys) = nameText table (xs ++ ys) := by
  unfold nameText
  rw [List.flatMap_append, List.flatMap_append, List.flatMap_append, List.flatMap_singleton, h]
  simp

theorem Correctable.translates (h : Correctable S n n' E L pos pos') : Translates S n' E := fun p hp b hb hb0 => by
  obtain ⟨k, h1, h2, _⟩ := h.outputs p hp b hb hb0
  exact ⟨k, h1, h2⟩

/-- The steps for a transition `b` of the error model that was taken, with `input` what is read then. -/
theorem kid_step (h : Correctable S n n' E L pos pos') {p q : Nat} {x : SpellNode} (hx : CorrectAt S E L pos pos' input p q x) {b : NArc}
    (hb : b ∈ E.arcs p) {c : Option Nat} (hc : Takes S.mutator.kinds E p b c) {i : Nat} (hi : i ≤ input.length)
    (hread : ∀ m, readBy m = input.drop i → readBy ((b, c) :: m) = input.drop x.input) {y : SpellNode} (hy : Kid S L pos pos' x q i b y) :
    ∃ q', CorrectAt S E L pos pos' input b.target q' y ∧ y.input = i ∧ (b.output = 0 → q' = q) ∧
      ∀ s w, Suggests S E L input b.target q' y s w → Suggests S E L input p q x s w := by
  have ht := h.tables.closed p hx.state b hb
  have hq := hx.lexicon
  rcases hy with ⟨h0, rfl⟩ | ⟨h0, a, ha, hk, rfl⟩
  · refine ⟨q, ⟨⟨hq.state, rfl, hq.features, hi⟩, ht, rfl, ?_⟩, rfl, fun _ => rfl, ?_⟩
    · intro k hk
      rcases List.mem_append.mp hk with hk | hk
      · exact hx.string k hk
      · rw [List.mem_singleton.mp hk]
        exact (List.getElem?_eq_some_iff.mp (h.deletes p hx.state b hb h0)).1
    · rintro s w ⟨m, p', u, l, q', v, r1, r2, r3, r4, r5, r6, r7, r8, r9⟩
      refine ⟨(b, c) :: m, p', u, l, q', v, .cons hb hc r1, r2, hread m r3, r4, r5, ?_, r7, ?_, ?_⟩
      · rw [wroteBy_zero h0]
        exact r6
      · rw [r8]
        exact nameText_zero (h.deletes p hx.state b hb h0) _ _
      · rw [r9, weightBy_cons]
        show x.weight + b.weight + _ = _
        omega
  · obtain ⟨k, k1, k2, k3, k4, k5⟩ := h.outputs p hx.state b hb h0
    rw [k1] at hk
    injection hk with hk
    subst hk
    have hout := (h.lexicon.symbols.known q hq.state a ha).2
    refine ⟨a.target, ⟨⟨h.lexicon.tables.closed q hq.state a ha, rfl, hq.features, hi⟩, ht, rfl, ?_⟩, rfl, fun h1 => absurd h1 h0, ?_⟩
    · intro k hk
      rcases List.mem_append.mp hk with hk | hk
      · exact hx.string k hk
      · rw [List.mem_singleton.mp hk]
        exact hout
    · rintro s w ⟨m, p', u, l, q', v, r1, r2, r3, r4, r5, r6, r7, r8, r9⟩
      refine ⟨(b, c) :: m, p', u, (a, some a.input) :: l, q', v, .cons hb hc r1, r2, hread m r3,
        .cons ha ((takes_known h.lexicon.default k3).mpr rfl) r4, r5, ?_, ?_, ?_, ?_⟩
      · rw [wroteBy_symbol h0, readBy_some, List.map_cons, List.map_cons, r6, k5]
      · exact passes_cons.mpr ⟨x.flags, apply_plain (K := S.lexicon.kinds) k2.2.2.1 _, r7⟩
      · rw [r8, List.map_cons]
        show nameText _ (x.string ++ [a.output] ++ _) = _
        rw [List.append_assoc]
        rfl
      · rw [r9, weightBy_cons, weightBy_cons]
        show x.weight + (a.weight + b.weight) + _ = _
        omega

/-- If the run of the error model starts with `b`, there is a node for it, unless the lexicon first takes a transition that reads nothing. -/
theorem step_kid (h : Correctable S n n' E L pos pos') {p q : Nat} {x : SpellNode} (hx : CorrectAt S E L pos pos' input p q x) {b : NArc}
    (hb : b ∈ E.arcs p) {c : Option Nat} (hc : Takes S.mutator.kinds E p b c) {i : Nat} (hi : i ≤ input.length)
    (hread : ∀ m, readBy m = input.drop i → readBy ((b, c) :: m) = input.drop x.input)
    {m : List (NArc × Option Nat)} {p' : Nat} {u : Int} {l : List (NArc × Option Nat)} {q' : Nat} {v : Int} (hl : ∀ a l', l ≠ (a, none) :: l')
    (r1 : NRun S.mutator.kinds E b.target m p') (r2 : E.final p' = some u) (r3 : readBy m = input.drop i)
    (r4 : NRun S.lexicon.kinds L q l q') (r5 : L.final q' = some v)
    (r6 : (wroteBy ((b, c) :: m)).map (fun x => S.mutator.alphabet.table[x]?) = (readBy l).map (fun x => S.lexicon.alphabet.table[x]?))
    (r7 : S.lexicon.fd.passes x.flags (l.map (·.1.input)) = some true) :
    ∃ y q'', Kid S L pos pos' x q i b y ∧ Suggests S E L input b.target q'' y (nameText S.lexicon.alphabet.table (x.string ++ l.map (·.1.output)))
      (x.weight + (weightBy ((b, c) :: m) + u + (weightBy l + v))) ∧ CorrectAt S E L pos pos' input b.target q'' y := by
  have hq := hx.lexicon
  by_cases h0 : b.output = 0
  · have hy : Kid S L pos pos' x q i b (x.update 0 i (pos b.target) (pos' q) b.weight) := .inl ⟨h0, rfl⟩
    obtain ⟨q'', g1, _, g2, _⟩ := kid_step h hx hb hc hi hread hy
    refine ⟨_, q'', hy, ?_, g1⟩
    rw [g2 h0]
    rw [wroteBy_zero h0] at r6
    refine ⟨m, p', u, l, q', v, r1, r2, r3, r4, r5, r6, r7, (nameText_zero (h.deletes p hx.state b hb h0) _ _).symm, ?_⟩
    rw [weightBy_cons]
    show _ = x.weight + b.weight + _
    omega
  · obtain ⟨k, k1, k2, k3, k4, k5⟩ := h.outputs p hx.state b hb h0
    rw [wroteBy_symbol h0, List.map_cons] at r6
    cases r4 with
    | nil => cases r6
    | @cons _ _ a c' l ha hc' hrest =>
      cases c' with
      | none => exact absurd rfl (hl a l)
      | some k' =>
        rw [readBy_some, List.map_cons] at r6
        injection r6 with r6 r6'
        have hkk : k' = k := by
          rw [← k5] at r6
          exact ((List.getElem?_inj k4 h.nodup).mp r6).symm
        subst hkk
        have hak := (takes_known h.lexicon.default k3).mp hc'
        obtain ⟨fs, f1, f2⟩ := passes_cons.mp r7
        dsimp only at f1
        have f3 : x.flags.applySymbol S.lexicon.fd a.input = some (true, x.flags) :=
          apply_plain (K := S.lexicon.kinds) (by rw [hak]; exact k2.2.2.1) _
        rw [f3] at f1
        injection f1 with f1
        injection f1 with _ f1
        rw [← f1] at f2
        have hout := (h.lexicon.symbols.known q hq.state a ha).2
        refine ⟨x.update a.output i (pos b.target) (pos' a.target) (a.weight + b.weight), a.target, .inr ⟨h0, a, ha, by rw [hak]; exact k1, rfl⟩,
          ⟨m, p', u, l, q', v, r1, r2, r3, hrest, r5, r6', f2, ?_, ?_⟩, ?_⟩
        · rw [List.map_cons]
          show _ = nameText _ (x.string ++ [a.output] ++ _)
          rw [List.append_assoc]
          rfl
        · rw [weightBy_cons, weightBy_cons]
          show _ = x.weight + (a.weight + b.weight) + _
          omega
        · refine ⟨⟨h.lexicon.tables.closed q hq.state a ha, rfl, hq.features, hi⟩, h.tables.closed p hx.state b hb, rfl, ?_⟩
          intro k hk
          rcases List.mem_append.mp hk with hk | hk
          · exact hx.string k hk
          · rw [List.mem_singleton.mp hk]
            exact hout

/-- What a node is replaced by. -/
theorem correct_step (h : Correctable S n n' E L pos pos') (hin : ∀ x ∈ input, IsInput S.mutator.kinds n x ∧ x < S.mutator.orig) {p q : Nat}
    {x : SpellNode} (hx : CorrectAt S E L pos pos' input p q x) :
    (∀ queue, S.lexiconEpsilons x queue = .ok (queue ++ kidsOf (S.lexiconEpsilons x []))) ∧
    (∀ queue, S.mutatorEpsilons x queue = .ok (queue ++ kidsOf (S.mutatorEpsilons x []))) ∧
    (∀ queue, S.consumeInput input x queue = .ok (queue ++ kidsOf (S.consumeInput input x []))) ∧
    (∀ y ∈ correctKids S input x, ∃ p' q', CorrectAt S E L pos pos' input p' q' y ∧
      (∀ s w, Suggests S E L input p' q' y s w → Suggests S E L input p q x s w) ∧
      ((y.input = x.input + 1) ∨ (y.input = x.input ∧ ∃ b ∈ E.arcs p, b.input = 0 ∧ b.target = p') ∨
        (y.input = x.input ∧ p' = p ∧ ∃ a ∈ L.arcs q, S.lexicon.kinds.Free a ∧ a.target = q'))) ∧
    (∀ s w, Suggests S E L input p q x s w → Suggestion S E L input p q x s w ∨
      ∃ y ∈ correctKids S input x, ∃ p' q', CorrectAt S E L pos pos' input p' q' y ∧ Suggests S E L input p' q' y s w) := by
  have hq := hx.lexicon
  obtain ⟨k1, e1, m1⟩ := lexiconEpsilons_ok h.lexicon.tables h.lexicon.symbols hq.state hq.lexicon hq.features
  obtain ⟨k2, e2, m2⟩ := mutatorEpsilons_ok h.tables h.symbols h.noFlags h.lexicon.tables h.lexicon.symbols h.translates hx.state hq.state hx.mutator hq.lexicon
  obtain ⟨k3, e3, m3⟩ := consumeInput_ok h.tables h.symbols h.lexicon.tables h.lexicon.symbols h.translates (fun y hy => (hin y hy).1) hx.state hq.state hx.mutator hq.lexicon
  have f1 : kidsOf (S.lexiconEpsilons x []) = k1 := kidsOf_eq e1
  have f2 : kidsOf (S.mutatorEpsilons x []) = k2 := kidsOf_eq e2
  have f3 : kidsOf (S.consumeInput input x []) = k3 := kidsOf_eq (f := S.consumeInput input x) e3
  refine ⟨by rw [f1]; exact e1, by rw [f2]; exact e2, by rw [f3]; exact e3, ?_, ?_⟩
  · intro y hy
    unfold correctKids at hy
    rw [f1, f2, f3, List.mem_append, List.mem_append, m1, m2, m3] at hy
    rcases hy with (⟨a, ha, hf, hy⟩ | ⟨b, hb, h0, hy⟩) | ⟨b, hb, hi, hy⟩
    · obtain ⟨fs, h1, rfl⟩ := mem_freeKids.mp hy
      have hfs := apply_length h.lexicon.symbols hq.features h1
      refine ⟨p, a.target, ⟨⟨h.lexicon.tables.closed q hq.state a ha, rfl, hfs, hq.place⟩, hx.state, hx.mutator, ?_⟩, ?_, .inr (.inr ⟨rfl, rfl, a, ha, hf, rfl⟩)⟩
      · intro k hk
        rcases List.mem_append.mp hk with hk | hk
        · exact hx.string k hk
        · rw [List.mem_singleton.mp hk]
          exact (h.lexicon.symbols.known q hq.state a ha).2
      · rintro s w ⟨m, p', u, l, q', v, r1, r2, r3, r4, r5, r6, r7, r8, r9⟩
        refine ⟨m, p', u, (a, none) :: l, q', v, r1, r2, r3, .cons ha hf r4, r5, r6, passes_cons.mpr ⟨fs, h1, r7⟩, ?_, ?_⟩
        · rw [r8, List.map_cons]
          show nameText _ (x.string ++ [a.output] ++ _) = _
          rw [List.append_assoc]
          rfl
        · rw [r9, weightBy_cons]
          show x.weight + a.weight + _ = _
          omega
    · obtain ⟨q', g1, g2, _, g3⟩ := kid_step h hx hb (c := none) (.inl h0) hq.place (fun m hm => hm) hy
      exact ⟨b.target, q', g1, g3, .inr (.inl ⟨g2, b, hb, h0, rfl⟩)⟩
    · have hmem := hin _ (List.mem_of_getElem? hi)
      obtain ⟨q', g1, g2, _, g3⟩ := kid_step h hx hb (c := some b.input) ((takes_known h.default hmem.2).mpr rfl) (i := x.input + 1)
        (List.getElem?_eq_some_iff.mp hi).1 (fun m hm => by rw [readBy_some, hm, drop_some hi]) hy
      exact ⟨b.target, q', g1, g3, .inl g2⟩
  · rintro s w ⟨m, p', u, l, q', v, r1, r2, r3, r4, r5, r6, r7, r8, r9⟩
    by_cases hfree : ∃ a l', l = (a, none) :: l'
    · obtain ⟨a, l', rfl⟩ := hfree
      right
      cases r4 with
      | cons ha hf hrest =>
        obtain ⟨fs, h1, h2⟩ := passes_cons.mp r7
        have hfs := apply_length h.lexicon.symbols hq.features h1
        refine ⟨SpellNode.update { x with flags := fs } a.output x.input x.mutator (pos' a.target) a.weight, ?_, p, a.target,
          ⟨⟨h.lexicon.tables.closed q hq.state a ha, rfl, hfs, hq.place⟩, hx.state, hx.mutator, ?_⟩,
          m, p', u, l', q', v, r1, r2, r3, hrest, r5, r6, h2, ?_, ?_⟩
        · unfold correctKids
          rw [f1, f2, f3, List.mem_append, List.mem_append, m1]
          exact .inl (.inl ⟨a, ha, hf, mem_freeKids.mpr ⟨fs, h1, rfl⟩⟩)
        · intro k hk
          rcases List.mem_append.mp hk with hk | hk
          · exact hx.string k hk
          · rw [List.mem_singleton.mp hk]
            exact (h.lexicon.symbols.known q hq.state a ha).2
        · rw [r8, List.map_cons]
          show _ = nameText _ (x.string ++ [a.output] ++ _)
          rw [List.append_assoc]
          rfl
        · rw [r9, weightBy_cons]
          show _ = x.weight + a.weight + _
          omega
    · have hl : ∀ a l', l ≠ (a, none) :: l' := fun a l' he => hfree ⟨a, l', he⟩
      cases r1 with
      | nil =>
        have hwr : wroteBy [] = [] := rfl
        rw [hwr] at r6
        cases r4 with
        | nil =>
          left
          have h1 := congrArg List.length r3
          rw [List.length_drop] at h1
          have h2 := hq.place
          have h3 : (readBy []).length = 0 := rfl
          refine ⟨by omega, u, v, r2, r5, ?_, ?_⟩
          · rw [r8, List.map_nil, List.append_nil]
          · rw [r9]
            have h4 : weightBy [] = 0 := rfl
            rw [h4]
            omega
        | @cons _ _ a c l ha hc hrest =>
          cases c with
          | none => exact absurd rfl (hl a l)
          | some k =>
            rw [readBy_some] at r6
            cases r6
      | @cons _ _ b c m hb hc hrest =>
        right
        cases c with
        | none =>
          have h0 : b.input = 0 := by
            rcases hc with hc | hc
            · exact hc
            · exact absurd hc (h.noFlags p hx.state b hb)
          obtain ⟨y, q'', g1, g2, g3⟩ := step_kid h hx hb (c := none) hc hq.place (fun m hm => hm) hl hrest r2 r3 r4 r5 r6 r7
          rw [r8, r9]
          refine ⟨y, ?_, b.target, q'', g3, g2⟩
          unfold correctKids
          rw [f1, f2, f3, List.mem_append, List.mem_append, m2]
          exact .inl (.inr ⟨b, hb, h0, g1⟩)
        | some k =>
          rw [readBy_some] at r3
          obtain ⟨h1, h2⟩ := drop_cons r3.symm
          have hmem := hin k (List.mem_of_getElem? h1)
          have hbk := (takes_known h.default hmem.2).mp hc
          obtain ⟨y, q'', g1, g2, g3⟩ := step_kid h hx hb (c := some k) hc (i := x.input + 1) (List.getElem?_eq_some_iff.mp h1).1
            (fun m hm => by rw [readBy_some, hm, drop_some h1]) hl hrest r2 h2.symm r4 r5 r6 r7
          rw [r8, r9]
          refine ⟨y, ?_, b.target, q'', g3, g2⟩
          unfold correctKids
          rw [f1, f2, f3, List.mem_append, m3]
          exact .inr ⟨b, hb, by rw [h1, hbk], g1⟩

/-- The weight is the smallest one that a suggestion has. -/
def LeastOf (P : Int → Prop) (w : Int) : Prop := P w ∧ ∀ w', P w' → w ≤ w'

theorem note_ok (h : Correctable S n n' E L pos pos') {p q : Nat} {x : SpellNode} (hx : CorrectAt S E L pos pos' input p q x)
    (hend : x.input = input.length) (m : List (Bytes × Int)) :
    ∃ m', S.note x m = .ok m' ∧ ∀ s w, mapGet m' s = some w ↔ LeastOf (fun w => mapGet m s = some w ∨ Suggestion S E L input p q x s w) w := by
  have hq := hx.lexicon
  unfold Speller.note
  rw [hx.mutator, hq.lexicon, stringify_ok _ hx.string]
  have hsame : ∀ {P : Bytes → Int → Prop}, (∀ s w, ¬ P s w) → ∀ s w, mapGet m s = some w ↔ LeastOf (fun w => mapGet m s = some w ∨ P s w) w := by
    intro P hP s w
    constructor
    · intro hw
      refine ⟨.inl hw, ?_⟩
      rintro w' (hw' | hw')
      · rw [hw] at hw'
        injection hw' with hw'
        omega
      · exact absurd hw' (hP s w')
    · rintro ⟨hw | hw, _⟩
      · exact hw
      · exact absurd hw (hP s w)
  rcases state_final h.tables hx.state with ⟨a1, a2⟩ | ⟨u, a1, a2, a3⟩
  · rw [a1]
    refine ⟨m, rfl, hsame ?_⟩
    rintro s w ⟨_, u, v, h1, _⟩
    rw [a2] at h1
    cases h1
  · rcases state_final h.lexicon.tables hq.state with ⟨b1, b2⟩ | ⟨v, b1, b2, b3⟩
    · rw [a1, b1]
      refine ⟨m, rfl, hsame ?_⟩
      rintro s w ⟨_, u, v, _, h1, _⟩
      rw [b2] at h1
      cases h1
    · rw [a1, b1, a2, b2]
      generalize hs : nameText S.lexicon.alphabet.table x.string = t
      have hsug : ∀ s w, Suggestion S E L input p q x s w ↔ s = t ∧ w = x.weight + v + u := by
        intro s w
        unfold Suggestion
        rw [hs]
        constructor
        · rintro ⟨_, u', v', h1, h2, h3, h4⟩
          rw [a3] at h1
          rw [b3] at h2
          injection h1 with h1
          injection h2 with h2
          rw [h1, h2]
          exact ⟨h3, h4⟩
        · rintro ⟨h3, h4⟩
          exact ⟨hend, u, v, a3, b3, h3, h4⟩
      show ∃ m', (match mapGet m t with
        | none => Outcome.ok (mapPut m t (x.weight + v + u))
        | some w' => if x.weight + v + u < w' then .ok (mapPut m t (x.weight + v + u)) else .ok m) = .ok m' ∧ _
      have hput : ∀ (w₀ : Int), (∀ w', mapGet m t = some w' → w₀ ≤ w') → w₀ = x.weight + v + u →
          ∀ s w, mapGet (mapPut m t w₀) s = some w ↔ LeastOf (fun w => mapGet m s = some w ∨ Suggestion S E L input p q x s w) w := by
        intro w₀ hle hw₀ s w
        rw [mapGet_put]
        by_cases hst : s = t
        · rw [if_pos hst]
          constructor
          · intro hw
            injection hw with hw
            subst hw
            refine ⟨.inr ((hsug s w₀).mpr ⟨hst, hw₀⟩), ?_⟩
            rintro w' (hw' | hw')
            · rw [hst] at hw'
              exact hle w' hw'
            · have := ((hsug s w').mp hw').2
              omega
          · rintro ⟨hw | hw, hall⟩
            · rw [hst] at hw
              have h1 := hle w hw
              have h2 := hall w₀ (.inr ((hsug s w₀).mpr ⟨hst, hw₀⟩))
              have : w₀ = w := by omega
              rw [this]
            · rw [hw₀, ((hsug s w).mp hw).2]
        · rw [if_neg hst]
          constructor
          · intro hw
            refine ⟨.inl hw, ?_⟩
            rintro w' (hw' | hw')
            · rw [hw] at hw'
              injection hw' with hw'
              omega
            · exact absurd ((hsug s w').mp hw').1 hst
          · rintro ⟨hw | hw, _⟩
            · exact hw
            · exact absurd ((hsug s w).mp hw).1 hst
      cases hg : mapGet m t with
      | none =>
        refine ⟨_, rfl, hput _ (fun w' hw' => ?_) rfl⟩
        rw [hg] at hw'
        cases hw'
      | some w' =>
        dsimp only
        by_cases hlt : x.weight + v + u < w'
        · rw [if_pos hlt]
          refine ⟨_, rfl, hput _ (fun w'' hw'' => ?_) rfl⟩
          rw [hg] at hw''
          injection hw'' with hw''
          omega
        · rw [if_neg hlt]
          refine ⟨m, rfl, fun s w => ?_⟩
          constructor
          · intro hw
            refine ⟨.inl hw, ?_⟩
            rintro w'' (hw'' | hw'')
            · rw [hw] at hw''
              injection hw'' with hw''
              omega
            · obtain ⟨h1, h2⟩ := (hsug s w'').mp hw''
              rw [h1, hg] at hw
              injection hw with hw
              omega
          · rintro ⟨hw | hw, hall⟩
            · exact hw
            · obtain ⟨h1, h2⟩ := (hsug s w).mp hw
              have h3 := hall w' (.inl (by rw [h1]; exact hg))
              have : w' = w := by omega
              rw [h1, hg, this]

theorem least_congr {P Q : Int → Prop} (h : ∀ w, P w ↔ Q w) (w : Int) : LeastOf P w ↔ LeastOf Q w := by
  have : P = Q := funext fun w => propext (h w)
  rw [this]

/-- Taking the least of some and then of the rest is the same as the least of all. -/
theorem least_least {A A' B : Int → Prop} {P : Int → Prop} (hA : ∀ w, A w ↔ LeastOf (fun w => P w ∨ A' w) w) (hex : (∃ w, P w ∨ A' w) → ∃ w, A w) (w : Int) :
    LeastOf (fun w => A w ∨ B w) w ↔ LeastOf (fun w => P w ∨ A' w ∨ B w) w := by
  constructor
  · rintro ⟨h1, h2⟩
    refine ⟨?_, ?_⟩
    · rcases h1 with h1 | h1
      · rcases ((hA w).mp h1).1 with h3 | h3
        · exact .inl h3
        · exact .inr (.inl h3)
      · exact .inr (.inr h1)
    · have hle : ∀ w', P w' ∨ A' w' → w ≤ w' := by
        intro w' hw'
        obtain ⟨v, hv⟩ := hex ⟨w', hw'⟩
        have h3 := h2 v (.inl hv)
        have h4 := ((hA v).mp hv).2 w' hw'
        omega
      rintro w' (hw' | hw' | hw')
      · exact hle w' (.inl hw')
      · exact hle w' (.inr hw')
      · exact h2 w' (.inr hw')
  · rintro ⟨h1, h2⟩
    refine ⟨?_, ?_⟩
    · rcases h1 with h1 | h1 | h1
      · refine .inl ((hA w).mpr ⟨.inl h1, ?_⟩)
        rintro w' (hw' | hw')
        · exact h2 w' (.inl hw')
        · exact h2 w' (.inr (.inl hw'))
      · refine .inl ((hA w).mpr ⟨.inr h1, ?_⟩)
        rintro w' (hw' | hw')
        · exact h2 w' (.inl hw')
        · exact h2 w' (.inr (.inl hw'))
      · exact .inr h1
    · rintro w' (hw' | hw')
      · rcases ((hA w').mp hw').1 with h3 | h3
        · exact h2 w' (.inl h3)
        · exact h2 w' (.inr (.inl h3))
      · exact h2 w' (.inr (.inr hw'))

/-- A node of the queue suggests it. -/
def Queued (S : Speller) (E L : Net) (pos pos' : Nat → Nat) (input : List Nat) (queue : List SpellNode) (s : Bytes) (w : Int) : Prop :=
  ∃ x ∈ queue, ∃ p q, CorrectAt S E L pos pos' input p q x ∧ Suggests S E L input p q x s w

theorem suggestion_suggests {p q : Nat} {x : SpellNode} {s : Bytes} {w : Int} (h : Suggestion S E L input p q x s w) :
    Suggests S E L input p q x s w := by
  obtain ⟨h1, u, v, h2, h3, h4, h5⟩ := h
  refine ⟨[], p, u, [], q, v, .nil, h2, ?_, .nil, h3, rfl, rfl, ?_, ?_⟩
  · rw [h1, List.drop_length]
    rfl
  · rw [h4, List.map_nil, List.append_nil]
  · have h6 : weightBy [] = 0 := rfl
    rw [h5, h6]
    omega

/-- The queue after a round suggests the same, besides what the node itself suggests. -/
theorem queued_step (h : Correctable S n n' E L pos pos') (hin : ∀ x ∈ input, IsInput S.mutator.kinds n x ∧ x < S.mutator.orig) {p q : Nat}
    {x : SpellNode} (hx : CorrectAt S E L pos pos' input p q x) (queue : List SpellNode) (s : Bytes) (w : Int) :
    Queued S E L pos pos' input (x :: queue) s w ↔
      Suggestion S E L input p q x s w ∨ Queued S E L pos pos' input (queue ++ correctKids S input x) s w := by
  obtain ⟨_, _, _, s1, s2⟩ := correct_step h hin hx
  have same : ∀ {y p₁ q₁ p₂ q₂}, CorrectAt S E L pos pos' input p₁ q₁ y → CorrectAt S E L pos pos' input p₂ q₂ y → p₁ = p₂ ∧ q₁ = q₂ := by
    intro y p₁ q₁ p₂ q₂ h1 h2
    exact ⟨h.injective _ h1.state _ h2.state (h1.mutator.symm.trans h2.mutator),
      h.lexicon.injective _ h1.lexicon.state _ h2.lexicon.state (h1.lexicon.lexicon.symm.trans h2.lexicon.lexicon)⟩
  constructor
  · rintro ⟨y, hy, p', q', h1, h2⟩
    rcases List.mem_cons.mp hy with rfl | hy
    · obtain ⟨rfl, rfl⟩ := same h1 hx
      rcases s2 s w h2 with h3 | ⟨z, hz, p'', q'', h3, h4⟩
      · exact .inl h3
      · exact .inr ⟨z, List.mem_append_right _ hz, p'', q'', h3, h4⟩
    · exact .inr ⟨y, List.mem_append_left _ hy, p', q', h1, h2⟩
  · rintro (h1 | ⟨y, hy, p', q', h1, h2⟩)
    · exact ⟨x, List.mem_cons_self .., p, q, hx, suggestion_suggests h1⟩
    · rcases List.mem_append.mp hy with hy | hy
      · exact ⟨y, List.mem_cons_of_mem _ hy, p', q', h1, h2⟩
      · obtain ⟨p'', q'', h3, h4, _⟩ := s1 y hy
        obtain ⟨rfl, rfl⟩ := same h1 h3
        exact ⟨x, List.mem_cons_self .., p, q, hx, h4 s w h2⟩

/-- One round of the loop. -/
theorem correct_round (h : Correctable S n n' E L pos pos') (hin : ∀ x ∈ input, IsInput S.mutator.kinds n x ∧ x < S.mutator.orig) {p q : Nat}
    {x : SpellNode} (hx : CorrectAt S E L pos pos' input p q x) (fuel : Nat) (queue : List SpellNode) (m : List (Bytes × Int)) :
    ∃ m', S.correctLoop input (fuel + 1) (x :: queue) m = S.correctLoop input fuel (queue ++ correctKids S input x) m' ∧
      ∀ s w, mapGet m' s = some w ↔ LeastOf (fun w => mapGet m s = some w ∨ Suggestion S E L input p q x s w) w := by
  obtain ⟨e1, e2, e3, s1, s2⟩ := correct_step h hin hx
  rw [Speller.correctLoop, e1]
  show ∃ m', ((S.mutatorEpsilons x (queue ++ kidsOf (S.lexiconEpsilons x []))).bind fun queue =>
    if x.input = input.length then (S.note x m).bind fun m => S.correctLoop input fuel queue m
        else (S.consumeInput input x queue).bind fun queue => S.correctLoop input fuel queue m) = _ ∧ _
  rw [e2]
  show ∃ m', (if x.input = input.length then (S.note x m).bind fun m =>
        S.correctLoop input fuel (queue ++ kidsOf (S.lexiconEpsilons x []) ++ kidsOf (S.mutatorEpsilons x [])) m
      else (S.consumeInput input x (queue ++ kidsOf (S.lexiconEpsilons x []) ++ kidsOf (S.mutatorEpsilons x []))).bind fun queue =>
        S.correctLoop input fuel queue m) = _ ∧ _
  by_cases hend : x.input = input.length
  · obtain ⟨m', n1, n2⟩ := note_ok h hx hend m
    refine ⟨m', ?_, n2⟩
    rw [if_pos hend, n1]
    have hnone : kidsOf (S.consumeInput input x []) = [] := by
      unfold Speller.consumeInput
      rw [List.getElem?_eq_none (by omega)]
      rfl
    unfold correctKids
    rw [hnone, List.append_nil, ← List.append_assoc]
    rfl
  · refine ⟨m, ?_, ?_⟩
    · rw [if_neg hend, e3]
      unfold correctKids
      rw [← List.append_assoc, ← List.append_assoc]
      rfl
    · intro s w
      constructor
      · intro hw
        refine ⟨.inl hw, ?_⟩
        rintro w' (hw' | hw')
        · rw [hw] at hw'
          injection hw' with hw'
          omega
        · exact absurd hw'.1 hend
      · rintro ⟨hw | hw, _⟩
        · exact hw
        · exact absurd hw.1 hend

/-- The nodes that are appended are in order. -/
theorem kids_at (h : Correctable S n n' E L pos pos') (hin : ∀ x ∈ input, IsInput S.mutator.kinds n x ∧ x < S.mutator.orig) {p q : Nat}
    {x : SpellNode} (hx : CorrectAt S E L pos pos' input p q x) {queue : List SpellNode}
    (hq : ∀ y ∈ queue, ∃ p q, CorrectAt S E L pos pos' input p q y) : ∀ y ∈ queue ++ correctKids S input x, ∃ p q, CorrectAt S E L pos pos' input p q y := by
  intro y hy
  rcases List.mem_append.mp hy with hy | hy
  · exact hq y hy
  · obtain ⟨p', q', h1, _⟩ := (correct_step h hin hx).2.2.2.1 y hy
    exact ⟨p', q', h1⟩

theorem correct_loop (h : Correctable S n n' E L pos pos') (hin : ∀ x ∈ input, IsInput S.mutator.kinds n x ∧ x < S.mutator.orig) :
    ∀ (fuel : Nat) (queue : List SpellNode) (m m' : List (Bytes × Int)), (∀ x ∈ queue, ∃ p q, CorrectAt S E L pos pos' input p q x) →
      S.correctLoop input fuel queue m = .ok m' →
      ∀ s w, mapGet m' s = some w ↔ LeastOf (fun w => mapGet m s = some w ∨ Queued S E L pos pos' input queue s w) w
  | _, [], m, m', _, hm => by
    intro s w
    rw [Speller.correctLoop] at hm
    injection hm with hm
    subst hm
    constructor
    · intro hw
      refine ⟨.inl hw, ?_⟩
      rintro w' (hw' | ⟨_, hx, _⟩)
      · rw [hw] at hw'
        injection hw' with hw'
        omega
      · cases hx
    · rintro ⟨hw | ⟨_, hx, _⟩, _⟩
      · exact hw
      · cases hx
  | 0, _ :: _, _, _, _, hm => by cases hm
  | fuel + 1, x :: queue, m, m', hq, hm => by
    intro s w
    obtain ⟨p, q, hx⟩ := hq x (List.mem_cons_self ..)
    obtain ⟨m₁, h1, h2⟩ := correct_round h hin hx fuel queue m
    rw [h1] at hm
    rw [correct_loop h hin fuel _ m₁ m' (kids_at h hin hx fun y hy => hq y (List.mem_cons_of_mem _ hy)) hm s w]
    rw [least_least (P := fun w => mapGet m s = some w) (A' := fun w => Suggestion S E L input p q x s w) (fun w => h2 s w)]
    · refine least_congr (fun w => ?_) w
      rw [queued_step h hin hx]
    · rintro ⟨w₁, hw₁⟩
      by_cases hsome : ∃ v, mapGet m s = some v
      · obtain ⟨v, hv⟩ := hsome
        by_cases hsug : ∃ u, Suggestion S E L input p q x s u ∧ u < v
        · obtain ⟨u, hu, hlt⟩ := hsug
          refine ⟨u, (h2 s u).mpr ⟨.inr hu, ?_⟩⟩
          rintro w' (hw' | hw')
          · rw [hv] at hw'
            injection hw' with hw'
            omega
          · obtain ⟨_, a, b, a1, a2, _, a3⟩ := hu
            obtain ⟨_, a', b', b1, b2, _, b3⟩ := hw'
            rw [a1] at b1
            rw [a2] at b2
            injection b1 with b1
            injection b2 with b2
            omega
        · refine ⟨v, (h2 s v).mpr ⟨.inl hv, ?_⟩⟩
          rintro w' (hw' | hw')
          · rw [hv] at hw'
            injection hw' with hw'
            omega
          · exact Int.not_lt.mp fun hlt => hsug ⟨w', hw', hlt⟩
      · rcases hw₁ with hw₁ | hw₁
        · exact absurd ⟨w₁, hw₁⟩ hsome
        · refine ⟨w₁, (h2 s w₁).mpr ⟨.inr hw₁, ?_⟩⟩
          rintro w' (hw' | hw')
          · exact absurd ⟨w', hw'⟩ hsome
          · obtain ⟨_, a, b, a1, a2, _, a3⟩ := hw₁
            obtain ⟨_, a', b', b1, b2, _, b3⟩ := hw'
            rw [a1] at b1
            rw [a2] at b2
            injection b1 with b1
            injection b2 with b2
            omega

theorem correct_ends (h : Correctable S n n' E L pos pos') (hin : ∀ x ∈ input, IsInput S.mutator.kinds n x ∧ x < S.mutator.orig) :
    ∀ (fuel : Nat) (queue : List SpellNode) (m : List (Bytes × Int)) (c : Nat), (∀ x ∈ queue, ∃ p q, CorrectAt S E L pos pos' input p q x) →
      Rounds (correctKids S input) queue c → c ≤ fuel → ∃ m', S.correctLoop input fuel queue m = .ok m'
  | _, [], m, _, _, _, _ => ⟨m, by rw [Speller.correctLoop]⟩
  | 0, x :: queue, _, c, _, hc, hf => by cases hc; omega
  | fuel + 1, x :: queue, m, c, hq, hc, hf => by
    obtain ⟨p, q, hx⟩ := hq x (List.mem_cons_self ..)
    obtain ⟨m₁, h1, _⟩ := correct_round h hin hx fuel queue m
    rw [h1]
    cases hc with
    | @cons _ _ c d hc hd =>
      exact correct_ends h hin fuel _ m₁ (d + c) (kids_at h hin hx fun y hy => hq y (List.mem_cons_of_mem _ hy)) (rounds_append hd hc) (by omega)

theorem correct_start (h : Correctable S n n' E L pos pos') : CorrectAt S E L pos pos' input 0 0 (.start (.init S.lexicon.fd.numFeatures)) :=
  ⟨check_start h.lexicon, h.tables.nonempty, h.tables.start.symm, by intro k hk; cases hk⟩

/-- If correcting comes to an end, each suggestion has the smallest weight among its derivations, and each derivation is suggested. -/
theorem correct_numbers (h : Correctable S n n' E L pos pos') (hin : ∀ x ∈ input, IsInput S.mutator.kinds n x ∧ x < S.mutator.orig) {fuel : Nat}
    {m : List (Bytes × Int)} (hm : S.correctNumbers fuel input = .ok m) (s : Bytes) (w : Int) :
    mapGet m s = some w ↔ LeastOf (Suggests S E L input 0 0 (.start (.init S.lexicon.fd.numFeatures)) s) w := by
  have hs := correct_start (input := input) h
  rw [correct_loop h hin fuel _ [] m (fun x hx => by rw [List.mem_singleton.mp hx]; exact ⟨0, 0, hs⟩) hm s w]
  refine least_congr (fun w => ?_) w
  constructor
  · rintro (hw | ⟨x, hx, p, q, h1, h2⟩)
    · cases hw
    · rw [List.mem_singleton.mp hx] at h1 h2
      have h3 : p = 0 := h.injective _ h1.state _ hs.state (h1.mutator.symm.trans hs.mutator)
      have h4 : q = 0 := h.lexicon.injective _ h1.lexicon.state _ hs.lexicon.state (h1.lexicon.lexicon.symm.trans hs.lexicon.lexicon)
      rw [h3, h4] at h2
      exact h2
  · intro hw
    exact .inr ⟨_, List.mem_singleton_self _, 0, 0, hs, hw⟩

theorem correct_numbers_ends (h : Correctable S n n' E L pos pos') (hin : ∀ x ∈ input, IsInput S.mutator.kinds n x ∧ x < S.mutator.orig)
    (hc : NoFreeCycle S.mutator.kinds E) (hc' : NoFreeCycle S.lexicon.kinds L) : ∃ fuel₀, ∀ fuel ≥ fuel₀, ∃ m, S.correctNumbers fuel input = .ok m := by
  obtain ⟨rank, hrank⟩ := hc
  obtain ⟨rank', hrank'⟩ := hc'
  have hs := correct_start (input := input) h
  obtain ⟨c, hr⟩ := rounds_exist (kids := correctKids S input) (good := fun (r : Nat × Nat) x => CorrectAt S E L pos pos' input r.1 r.2 x) nearer_wf
    (fun r x => (input.length - x.input, rank r.1, rank' r.2)) (fun r x hx y hy => by
      obtain ⟨p', q', h1, _, h2⟩ := (correct_step h hin hx).2.2.2.1 y hy
      refine ⟨(p', q'), h1, ?_⟩
      have h3 := h1.lexicon.place
      rcases h2 with h2 | ⟨h2, b, hb, h0, rfl⟩ | ⟨h2, rfl, a, ha, hf, rfl⟩
      · exact .left _ _ (by omega)
      · rw [h2]
        exact .right _ (.left _ _ (hrank r.1 hx.state b hb (.inl h0)))
      · rw [h2]
        exact .right _ (.right _ (hrank' r.2 hx.lexicon.state a ha hf))) (q := (0, 0)) hs
  refine ⟨c + 0 + 1, fun fuel hf => ?_⟩
  exact correct_ends h hin fuel _ [] _ (fun x hx => by rw [List.mem_singleton.mp hx]; exact ⟨0, 0, hs⟩) (.cons hr .nil) hf

end

end Hfst.Ol
