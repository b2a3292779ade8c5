import Verif.Props.OlSpell
import Mathlib.Data.Prod.Lex
import Mathlib.Order.RelClasses

/-!
# The loops of the spell checker (C42)
-/
namespace Hfst.Ol
open Hfst.Basic

/-! ## How long a queue lasts -/

/-- How many rounds it takes until a queue is empty, if each element that is removed is replaced by `kids`. -/
inductive Rounds {α : Type} (kids : α → List α) : List α → Nat → Prop
  | nil : Rounds kids [] 0
  | cons {x : α} {l : List α} {c d : Nat} : Rounds kids (kids x) c → Rounds kids l d → Rounds kids (x :: l) (c + d + 1)

theorem rounds_append {α : Type} {kids : α → List α} {l l' : List α} {c d : Nat} (h : Rounds kids l c) (h' : Rounds kids l' d) :
    Rounds kids (l ++ l') (c + d) := by
  induction h with
  | nil => rw [Nat.zero_add]; exact h'
  | @cons x l c₁ d₁ h1 _ _ ih2 =>
    have h3 := Rounds.cons h1 ih2
    rw [show c₁ + d₁ + 1 + d = c₁ + (d₁ + d) + 1 by omega]
    exact h3

theorem rounds_all {α : Type} {kids : α → List α} : ∀ (l : List α), (∀ x ∈ l, ∃ c, Rounds kids (kids x) c) → ∃ c, Rounds kids l c
  | [], _ => ⟨0, .nil⟩
  | x :: l, h => by
    obtain ⟨c, hc⟩ := h x (List.mem_cons_self ..)
    obtain ⟨d, hd⟩ := rounds_all l fun y hy => h y (List.mem_cons_of_mem _ hy)
    exact ⟨_, .cons hc hd⟩

theorem rounds_exist {α β γ : Type} {kids : α → List α} {good : β → α → Prop} {r : γ → γ → Prop} (hr : WellFounded r) (measure : β → α → γ)
    (h : ∀ q x, good q x → ∀ y ∈ kids x, ∃ q', good q' y ∧ r (measure q' y) (measure q x)) {q : β} {x : α} (hx : good q x) :
    ∃ c, Rounds kids (kids x) c := by
  generalize hm : measure q x = m
  induction m using hr.induction generalizing q x with
  | _ m ih =>
    subst hm
    refine rounds_all _ fun y hy => ?_
    obtain ⟨q', h1, h2⟩ := h q x hx y hy
    exact ih _ h2 h1 rfl

/-- How far a node still has to go: the input, the error model and the lexicon. -/
def Nearer : Nat × Nat × Nat → Nat × Nat × Nat → Prop := Prod.Lex (· < ·) (Prod.Lex (· < ·) (· < ·))

theorem nearer_wf : WellFounded Nearer := WellFounded.prod_lex Nat.lt_wfRel.wf (WellFounded.prod_lex Nat.lt_wfRel.wf Nat.lt_wfRel.wf)

/-! ## Runs that read fixed symbols -/

section
variable {K : Kinds} {N : Net}

theorem takes_known (hd : K.al.default = noSymbol) {q : Nat} {a : NArc} {x : Nat} (hx : x < K.orig) : Takes K N q a (some x) ↔ a.input = x := by
  unfold Takes Kinds.Direct
  dsimp only
  rw [if_pos hx]
  constructor
  · rintro (h | ⟨h1, h2, _⟩)
    · exact h
    · exact absurd (h2.trans hd) h1
  · exact .inl

theorem readBy_none (a : NArc) (l : List (NArc × Option Nat)) : readBy ((a, none) :: l) = readBy l := rfl

theorem readBy_some (a : NArc) (x : Nat) (l : List (NArc × Option Nat)) : readBy ((a, some x) :: l) = x :: readBy l := rfl

theorem weightBy_cons (a : NArc) (c : Option Nat) (l : List (NArc × Option Nat)) : weightBy ((a, c) :: l) = a.weight + weightBy l := by
  unfold weightBy
  rw [List.map_cons, List.sum_cons]

theorem wroteBy_zero {a : NArc} (h : a.output = 0) (c : Option Nat) (l : List (NArc × Option Nat)) : wroteBy ((a, c) :: l) = wroteBy l := by
  unfold wroteBy
  rw [List.map_cons, List.filter_cons_of_neg]
  simp [h]

theorem wroteBy_symbol {a : NArc} (h : a.output ≠ 0) (c : Option Nat) (l : List (NArc × Option Nat)) :
    wroteBy ((a, c) :: l) = a.output :: wroteBy l := by
  unfold wroteBy
  rw [List.map_cons, List.filter_cons_of_pos]
  simp [h]

theorem passes_cons {fd : Flags.FdTable Nat} {st : Flags.FdState} {x : Nat} {xs : List Nat} :
    fd.passes st (x :: xs) = some true ↔ ∃ st', st.applySymbol fd x = some (true, st') ∧ fd.passes st' xs = some true := by
  rw [Flags.FdTable.passes]
  constructor
  · intro h
    split at h
    · cases h
    · next st' h' => exact ⟨st', h', h⟩
    · cases h
  · rintro ⟨st', h1, h2⟩
    rw [h1]
    exact h2

theorem drop_cons {l : List Nat} {i x : Nat} {xs : List Nat} (h : l.drop i = x :: xs) : l[i]? = some x ∧ l.drop (i + 1) = xs := by
  have h1 : l[i]? = some x := by
    have h2 : (l.drop i)[0]? = (x :: xs)[0]? := by rw [h]
    rw [List.getElem?_drop, Nat.add_zero] at h2
    exact h2
  refine ⟨h1, ?_⟩
  rw [← List.drop_drop, h]
  rfl

theorem drop_some {l : List Nat} {i x : Nat} (h : l[i]? = some x) : l.drop i = x :: l.drop (i + 1) := by
  obtain ⟨h1, h2⟩ := List.getElem?_eq_some_iff.mp h
  rw [List.drop_eq_getElem_cons h1, h2]

end

/-- What a step appends to the queue. -/
def kidsOf : Outcome (List SpellNode) → List SpellNode
  | .ok l => l
  | _ => []

theorem kidsOf_eq {f : List SpellNode → Outcome (List SpellNode)} {kids : List SpellNode} (h : ∀ queue, f queue = .ok (queue ++ kids)) :
    kidsOf (f []) = kids := by
  rw [h []]
  rfl

theorem mem_freeKids {fd : Flags.FdTable Nat} {pos : Nat → Nat} {x : SpellNode} {a : NArc} {y : SpellNode} :
    y ∈ freeKids fd pos x a ↔ ∃ fs, x.flags.applySymbol fd a.input = some (true, fs) ∧
      y = { x with flags := fs }.update a.output x.input x.mutator (pos a.target) a.weight := by
  unfold freeKids
  split
  · next fs h =>
    rw [List.mem_singleton]
    constructor
    · exact fun hy => ⟨fs, h, hy⟩
    · rintro ⟨fs', h', hy⟩
      rw [h] at h'
      injection h' with h'
      injection h' with _ h'
      rw [hy, h']
  · next h =>
    constructor
    · intro hy; cases hy
    · rintro ⟨fs, h', _⟩
      exact absurd h' (h fs)

/-! ## Checking -/

section
variable {S : Speller} {n : Inputs} {N : Net} {pos : Nat → Nat} {input : List Nat}

/-- The lexicon can be searched for the input. -/
structure Searchable (S : Speller) (n : Inputs) (N : Net) (pos : Nat → Nat) : Prop where
  tables : Represents S.lexicon n N pos
  symbols : SymbolsOK S.lexicon.kinds n N
  injective : ∀ q < N.size, ∀ r < N.size, pos q = pos r → q = r
  default : S.lexicon.alphabet.default = noSymbol

/-- The node is about the state `q` of the lexicon. -/
structure CheckAt (S : Speller) (N : Net) (pos : Nat → Nat) (input : List Nat) (q : Nat) (x : SpellNode) : Prop where
  state : q < N.size
  lexicon : x.lexicon = pos q
  features : x.flags.values.length = S.lexicon.fd.numFeatures
  place : x.input ≤ input.length

/-- The rest of the input is accepted from the state `q`. -/
def Wins (S : Speller) (N : Net) (input : List Nat) (q : Nat) (x : SpellNode) : Prop :=
  ∃ l r w, NRun S.lexicon.kinds N q l r ∧ N.final r = some w ∧ readBy l = input.drop x.input ∧
    S.lexicon.fd.passes x.flags (l.map (·.1.input)) = some true

/-- What checking appends to the queue for a node. -/
def checkKids (S : Speller) (input : List Nat) (x : SpellNode) : List SpellNode :=
  kidsOf (S.lexiconEpsilons x []) ++ kidsOf (S.lexiconConsume input x [])

theorem apply_length {K : Kinds} (hS : SymbolsOK K n N) {st st' : Flags.FdState} {b : Bool} {x : Nat} (hst : st.values.length = K.fd.numFeatures)
    (h : st.applySymbol K.fd x = some (b, st')) : st'.values.length = K.fd.numFeatures := by
  obtain ⟨b', st'', h1, h2⟩ := apply_free hS hst x
  rw [h] at h1
  injection h1 with h1
  injection h1 with _ h1
  rw [h1]
  exact h2

theorem check_step (h : Searchable S n N pos) (hin : ∀ x ∈ input, IsInput S.lexicon.kinds n x ∧ x < S.lexicon.orig) {q : Nat} {x : SpellNode}
    (hx : CheckAt S N pos input q x) :
    (∀ queue, S.lexiconEpsilons x queue = .ok (queue ++ kidsOf (S.lexiconEpsilons x []))) ∧
    (∀ queue, S.lexiconConsume input x queue = .ok (queue ++ kidsOf (S.lexiconConsume input x []))) ∧
    (∀ y ∈ checkKids S input x, ∃ q', CheckAt S N pos input q' y ∧ (Wins S N input q' y → Wins S N input q x) ∧
      ((y.input = x.input + 1) ∨ (y.input = x.input ∧ ∃ a ∈ N.arcs q, S.lexicon.kinds.Free a ∧ a.target = q'))) ∧
    (Wins S N input q x → (x.input = input.length ∧ ∃ w, N.final q = some w) ∨
      ∃ y ∈ checkKids S input x, ∃ q', CheckAt S N pos input q' y ∧ Wins S N input q' y) := by
  obtain ⟨k1, e1, m1⟩ := lexiconEpsilons_ok h.tables h.symbols hx.state hx.lexicon hx.features
  obtain ⟨k2, e2, m2⟩ := lexiconConsume_ok h.tables h.symbols (fun y hy => (hin y hy).1) hx.state hx.lexicon
  have f1 : kidsOf (S.lexiconEpsilons x []) = k1 := kidsOf_eq e1
  have f2 : kidsOf (S.lexiconConsume input x []) = k2 := kidsOf_eq (f := S.lexiconConsume input x) e2
  have hK : S.lexicon.kinds.fd = S.lexicon.fd := rfl
  refine ⟨by rw [f1]; exact e1, by rw [f2]; exact e2, ?_, ?_⟩
  · intro y hy
    unfold checkKids at hy
    rw [f1, f2, List.mem_append, m1, m2] at hy
    rcases hy with ⟨a, ha, hf, hy⟩ | ⟨a, ha, hi, rfl⟩
    · obtain ⟨fs, h1, rfl⟩ := mem_freeKids.mp hy
      have hfs := apply_length h.symbols hx.features h1
      refine ⟨a.target, ⟨h.tables.closed q hx.state a ha, rfl, hfs, hx.place⟩, ?_, .inr ⟨rfl, a, ha, hf, rfl⟩⟩
      rintro ⟨l, r, w, r1, r2, r3, r4⟩
      exact ⟨(a, none) :: l, r, w, .cons ha hf r1, r2, r3, passes_cons.mpr ⟨fs, h1, r4⟩⟩
    · have hmem := hin _ (List.mem_of_getElem? hi)
      refine ⟨a.target, ⟨h.tables.closed q hx.state a ha, rfl, hx.features, (List.getElem?_eq_some_iff.mp hi).1⟩, ?_, .inl rfl⟩
      rintro ⟨l, r, w, r1, r2, r3, r4⟩
      refine ⟨(a, some a.input) :: l, r, w, .cons ha ((takes_known h.default hmem.2).mpr rfl) r1, r2, ?_, ?_⟩
      · rw [readBy_some, r3, drop_some hi]
        rfl
      · exact passes_cons.mpr ⟨x.flags, apply_plain (K := S.lexicon.kinds) hmem.1.2.2.1 _, r4⟩
  · rintro ⟨l, r, w, r1, r2, r3, r4⟩
    cases r1 with
    | nil =>
      left
      have h1 := congrArg List.length r3
      rw [List.length_drop] at h1
      have h2 := hx.place
      have h3 : (readBy []).length = 0 := rfl
      exact ⟨by omega, w, r2⟩
    | @cons _ _ a c l ha hc hrest =>
      right
      cases c with
      | none =>
        obtain ⟨fs, h1, h2⟩ := passes_cons.mp r4
        have hfs := apply_length h.symbols hx.features h1
        refine ⟨SpellNode.update { x with flags := fs } a.output x.input x.mutator (pos a.target) a.weight, ?_, a.target,
          ⟨h.tables.closed q hx.state a ha, rfl, hfs, hx.place⟩, l, r, w, hrest, r2, r3, h2⟩
        unfold checkKids
        rw [f1, f2, List.mem_append, m1]
        exact .inl ⟨a, ha, hc, mem_freeKids.mpr ⟨fs, h1, rfl⟩⟩
      | some k =>
        rw [readBy_some] at r3
        obtain ⟨h1, h2⟩ := drop_cons r3.symm
        have hmem := hin k (List.mem_of_getElem? h1)
        have hak := (takes_known h.default hmem.2).mp hc
        obtain ⟨fs, h3, h4⟩ := passes_cons.mp r4
        dsimp only at h3
        have h5 : x.flags.applySymbol S.lexicon.fd a.input = some (true, x.flags) :=
          apply_plain (K := S.lexicon.kinds) (by rw [hak]; exact hmem.1.2.2.1) _
        rw [h5] at h3
        injection h3 with h3
        injection h3 with _ h3
        rw [← h3] at h4
        refine ⟨x.update a.output (x.input + 1) x.mutator (pos a.target) a.weight, ?_, a.target,
          ⟨h.tables.closed q hx.state a ha, rfl, hx.features, (List.getElem?_eq_some_iff.mp h1).1⟩, l, r, w, hrest, r2, h2.symm, h4⟩
        unfold checkKids
        rw [f1, f2, List.mem_append, m2]
        exact .inr ⟨a, ha, by rw [h1, hak], rfl⟩

/-- The test of a node. -/
theorem check_stop (h : Searchable S n N pos) {q : Nat} {x : SpellNode} (hx : CheckAt S N pos input q x) :
    ∃ b, (if x.input = input.length then S.lexicon.finalIndex x.lexicon else Outcome.ok false) = .ok b ∧
      (b = true ↔ x.input = input.length ∧ ∃ w, N.final q = some w) := by
  by_cases hl : x.input = input.length
  · rw [if_pos hl, hx.lexicon]
    rcases state_final h.tables hx.state with ⟨h1, h2⟩ | ⟨w, h1, _, h2⟩
    · refine ⟨false, h1, by rw [h2]; simp⟩
    · exact ⟨true, h1, by rw [h2]; simp [hl]⟩
  · exact ⟨false, if_neg hl, by simp [hl]⟩

theorem check_loop (h : Searchable S n N pos) (hin : ∀ x ∈ input, IsInput S.lexicon.kinds n x ∧ x < S.lexicon.orig) :
    ∀ (fuel : Nat) (queue : List SpellNode) (b : Bool), (∀ x ∈ queue, ∃ q, CheckAt S N pos input q x) → S.checkLoop input fuel queue = .ok b →
      (b = true ↔ ∃ x ∈ queue, ∃ q, CheckAt S N pos input q x ∧ Wins S N input q x)
  | _, [], b, _, hb => by
    rw [Speller.checkLoop] at hb
    injection hb with hb
    rw [← hb]
    simp
  | 0, _ :: _, _, _, hb => by cases hb
  | fuel + 1, x :: queue, b, hq, hb => by
    obtain ⟨q, hx⟩ := hq x (List.mem_cons_self ..)
    obtain ⟨e1, e2, s1, s2⟩ := check_step h hin hx
    obtain ⟨t, ht, ht'⟩ := check_stop h hx
    rw [Speller.checkLoop, ht] at hb
    replace hb : (if t = true then Outcome.ok true else (S.lexiconEpsilons x queue).bind fun queue =>
        (S.lexiconConsume input x queue).bind fun queue => S.checkLoop input fuel queue) = .ok b := hb
    by_cases hyes : t = true
    · rw [if_pos hyes] at hb
      injection hb with hb
      obtain ⟨h1, w, h2⟩ := ht'.mp hyes
      rw [← hb]
      refine ⟨fun _ => ⟨x, List.mem_cons_self .., q, hx, [], q, w, .nil, h2, ?_, rfl⟩, fun _ => rfl⟩
      rw [h1, List.drop_length]
      rfl
    · rw [if_neg hyes, e1] at hb
      replace hb : ((S.lexiconConsume input x (queue ++ kidsOf (S.lexiconEpsilons x []))).bind fun queue => S.checkLoop input fuel queue) = .ok b := hb
      rw [e2, List.append_assoc] at hb
      have ih := check_loop h hin fuel (queue ++ checkKids S input x) b ?_ hb
      · rw [ih]
        constructor
        · rintro ⟨y, hy, q', hy1, hy2⟩
          rcases List.mem_append.mp hy with hy | hy
          · exact ⟨y, List.mem_cons_of_mem _ hy, q', hy1, hy2⟩
          · obtain ⟨q'', hy3, hy4, _⟩ := s1 y hy
            have : q' = q'' := h.injective q' hy1.state q'' hy3.state (hy1.lexicon.symm.trans hy3.lexicon)
            subst this
            exact ⟨x, List.mem_cons_self .., q, hx, hy4 hy2⟩
        · rintro ⟨y, hy, q', hy1, hy2⟩
          rcases List.mem_cons.mp hy with rfl | hy
          · have : q' = q := h.injective q' hy1.state q hx.state (hy1.lexicon.symm.trans hx.lexicon)
            subst this
            rcases s2 hy2 with hw | ⟨z, hz, q'', hz1, hz2⟩
            · exact absurd (ht'.mpr hw) hyes
            · exact ⟨z, List.mem_append_right _ hz, q'', hz1, hz2⟩
          · exact ⟨y, List.mem_append_left _ hy, q', hy1, hy2⟩
      · intro y hy
        rcases List.mem_append.mp hy with hy | hy
        · exact hq y (List.mem_cons_of_mem _ hy)
        · obtain ⟨q', hq', _⟩ := s1 y hy
          exact ⟨q', hq'⟩

theorem check_ends (h : Searchable S n N pos) (hin : ∀ x ∈ input, IsInput S.lexicon.kinds n x ∧ x < S.lexicon.orig) :
    ∀ (fuel : Nat) (queue : List SpellNode) (c : Nat), (∀ x ∈ queue, ∃ q, CheckAt S N pos input q x) → Rounds (checkKids S input) queue c →
      c ≤ fuel → ∃ b, S.checkLoop input fuel queue = .ok b
  | fuel, [], _, _, _, _ => ⟨false, by rw [Speller.checkLoop]⟩
  | 0, x :: queue, c, _, hc, hf => by cases hc; omega
  | fuel + 1, x :: queue, c, hq, hc, hf => by
    obtain ⟨q, hx⟩ := hq x (List.mem_cons_self ..)
    obtain ⟨e1, e2, s1, s2⟩ := check_step h hin hx
    obtain ⟨t, ht, ht'⟩ := check_stop h hx
    rw [Speller.checkLoop, ht]
    show ∃ b, (if t = true then Outcome.ok true else (S.lexiconEpsilons x queue).bind fun queue =>
        (S.lexiconConsume input x queue).bind fun queue => S.checkLoop input fuel queue) = .ok b
    by_cases hyes : t = true
    · exact ⟨true, if_pos hyes⟩
    · rw [if_neg hyes, e1]
      show ∃ b, ((S.lexiconConsume input x (queue ++ kidsOf (S.lexiconEpsilons x []))).bind fun queue => S.checkLoop input fuel queue) = .ok b
      rw [e2, List.append_assoc]
      cases hc with
      | @cons _ _ c d hc hd =>
        refine check_ends h hin fuel (queue ++ checkKids S input x) (d + c) ?_ (rounds_append hd hc) (by omega)
        intro y hy
        rcases List.mem_append.mp hy with hy | hy
        · exact hq y (List.mem_cons_of_mem _ hy)
        · obtain ⟨q', hq', _⟩ := s1 y hy
          exact ⟨q', hq'⟩

theorem check_start (h : Searchable S n N pos) : CheckAt S N pos input 0 (.start (.init S.lexicon.fd.numFeatures)) :=
  ⟨h.tables.nonempty, h.tables.start.symm, by simp [SpellNode.start, Flags.FdState.init], Nat.zero_le _⟩

/-- **C42, checking symbols**: if checking comes to an end, it says yes exactly if the lexicon accepts the symbols. -/
theorem check_numbers (h : Searchable S n N pos) (hin : ∀ x ∈ input, IsInput S.lexicon.kinds n x ∧ x < S.lexicon.orig) {fuel : Nat} {b : Bool}
    (hb : S.checkNumbers fuel input = .ok b) : b = true ↔ Recognizes S.lexicon.kinds N input := by
  have hs := check_start (input := input) h
  rw [check_loop h hin fuel _ b (fun x hx => by rw [List.mem_singleton.mp hx]; exact ⟨0, hs⟩) hb]
  constructor
  · rintro ⟨x, hx, q, h1, l, r, w, h2, h3, h4, h5⟩
    rw [List.mem_singleton.mp hx] at h1 h4 h5
    have : q = 0 := h.injective q h1.state 0 hs.state (h1.lexicon.symm.trans hs.lexicon)
    subst this
    exact ⟨l, r, w, h2, h3, h4, h5⟩
  · rintro ⟨l, r, w, h2, h3, h4, h5⟩
    exact ⟨_, List.mem_singleton_self _, 0, hs, l, r, w, h2, h3, h4, h5⟩

theorem check_numbers_ends (h : Searchable S n N pos) (hin : ∀ x ∈ input, IsInput S.lexicon.kinds n x ∧ x < S.lexicon.orig)
    (hc : NoFreeCycle S.lexicon.kinds N) : ∃ fuel₀, ∀ fuel ≥ fuel₀, ∃ b, S.checkNumbers fuel input = .ok b := by
  obtain ⟨rank, hrank⟩ := hc
  have hs := check_start (input := input) h
  obtain ⟨c, hr⟩ := rounds_exist (kids := checkKids S input) (good := CheckAt S N pos input) nearer_wf
    (fun q x => (input.length - x.input, 0, rank q)) (fun q x hx y hy => by
      obtain ⟨q', h1, _, h2⟩ := (check_step h hin hx).2.2.1 y hy
      refine ⟨q', h1, ?_⟩
      have h3 := h1.place
      rcases h2 with h2 | ⟨h2, a, ha, hf, rfl⟩
      · exact .left _ _ (by omega)
      · rw [h2]
        exact .right _ (.right _ (hrank q hx.state a ha hf))) hs
  refine ⟨c + 0 + 1, fun fuel hf => ?_⟩
  exact check_ends h hin fuel _ _ (fun x hx => by rw [List.mem_singleton.mp hx]; exact ⟨0, hs⟩) (.cons hr .nil) hf

end

end Hfst.Ol
