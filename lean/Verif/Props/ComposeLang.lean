import Verif.Props.Compose
import Verif.Props.Intersect

/-!
# C33: the result of compose-intersect is the composition
-/
namespace Hfst.Compose
open Hfst.Basic Hfst.Basic.Graph

variable {num : Sym → Nat} {L : Graph} {spec : RuleSpec}

/-! ## The lexicon -/

theorem lex_entries (ik : Bool) : ∀ (l : List Arc) (m : List (Sym × List Arc)) (P : Arc → Prop),
    (∀ e ∈ m, ∀ c ∈ e.2, P c ∧ c.inp ≠ identity ∧ key ik c = e.1) → (∀ c ∈ l, P c) →
    ∀ e ∈ l.foldl (addToMap num ik) m, ∀ c ∈ e.2, P c ∧ c.inp ≠ identity ∧ key ik c = e.1
  | [], _, _, h, _ => h
  | a :: l, m, P, h, hl => by
    rw [List.foldl_cons]
    refine lex_entries ik l _ P ?_ (fun c hc => hl c (List.mem_cons_of_mem _ hc))
    unfold addToMap
    by_cases ha : a.inp = identity
    · rw [if_pos ha]; exact h
    · rw [if_neg ha]
      dsimp only
      intro e he c hc
      rcases List.mem_cons.mp he with rfl | he
      · rcases mem_insertArc.mp hc with rfl | hc
        · exact ⟨hl _ (List.mem_cons_self ..), ha, rfl⟩
        · cases hg : mapGet m (if ik = true then a.inp else a.out) with
          | none => rw [hg] at hc; cases hc
          | some set =>
            rw [hg] at hc
            exact h _ (mapGet_mem hg) c hc
      · exact h e (List.mem_filter.mp he).1 c hc

/-- The map of a lexicon state. -/
theorem lex_map {s : Nat} (hs : s < L.states.length) : ∃ m, (Fst.build num false L).maps[s]? = some m ∧
    (∀ e ∈ m, ∀ a ∈ e.2, a ∈ L.arcs s ∧ a.inp ≠ identity ∧ a.out = e.1) ∧
    ∀ a ∈ L.arcs s, a.inp ≠ identity → ∃ e ∈ m, a ∈ e.2 := by
  have hlen : (L.sortArcs num).states.length = L.states.length := by simp [Graph.sortArcs]
  have hl : (L.sortArcs num).states[s]? = some (L.sortArcs num).states[s] := List.getElem?_eq_getElem (by omega)
  have harcs := mem_getD_of_get hl
  refine ⟨(L.sortArcs num).states[s].foldl (addToMap num false) [], ?_, ?_, ?_⟩
  · unfold Fst.build
    dsimp only
    rw [List.getElem?_map, hl]
    rfl
  · exact lex_entries false _ [] (fun a => a ∈ L.arcs s) (by simp) (by
      intro c hc
      rw [← harcs, mem_sorted_arcs] at hc
      exact hc)
  · intro a ha hi
    have := (addToMap_get (num := num) false (L.sortArcs num).states[s] [] a.out a).mpr
      (.inr ⟨by rw [← harcs, mem_sorted_arcs]; exact ha, hi, rfl⟩)
    cases hg : mapGet ((L.sortArcs num).states[s].foldl (addToMap num false) []) a.out with
    | none => rw [hg] at this; cases this
    | some set =>
      rw [hg] at this
      exact ⟨_, mapGet_mem hg, this⟩

/-! ## Steps of lexicon and rules together -/

/-- The symbols that `known_symbol` knows. -/
def RuleSpec.CodeKnows : RuleSpec → Sym → Prop
  | .one g, x => x ∈ g.alphabet
  | .both _ _, _ => False

/-- The symbols that the code passes through. -/
def RuleSpec.CodePasses (r : RuleSpec) (x : Sym) : Prop := Flags.isDiacritic x = true ∧ ¬ r.CodeKnows x

theorem known_iff : ∀ (r : Rules), RInv num r spec → ∀ x, (Flags.isDiacritic x = true ∧ r.known x = false) ↔ spec.CodePasses x
  | .rule f sy, h, x => by
    match spec, h with
    | .one g, h =>
      obtain ⟨_, rfl⟩ := h
      simp [Rules.known, RuleSpec.CodePasses, RuleSpec.CodeKnows]
  | .pair a b t, h, x => by
    match spec, h with
    | .both _ _, h => simp [Rules.known, RuleSpec.CodePasses, RuleSpec.CodeKnows]

/-- What lexicon and rules can do together. -/
inductive JStep (L : Graph) (spec : RuleSpec) (pass : Sym → Prop) :
    Nat × RState → Sym → Sym → Int → Nat × RState → Prop
  | skip {l : Nat} {q : RState} {a : Arc} : a ∈ L.arcs l → a.inp ≠ identity → a.out = epsilon ∨ pass a.out →
      JStep L spec pass (l, q) a.inp a.out a.weight (a.target, q)
  | both {l : Nat} {q q' : RState} {a : Arc} {o : Sym} {w : Int} : a ∈ L.arcs l → a.inp ≠ identity →
      ¬ (a.out = epsilon ∨ pass a.out) → spec.Step q a.out o w q' →
      JStep L spec pass (l, q) a.inp o (a.weight + w) (a.target, q')
  | rule {l : Nat} {q q' : RState} {o : Sym} {w : Int} : spec.Step q epsilon o w q' →
      JStep L spec pass (l, q) epsilon o w (l, q')

/-- What a state of the result stands for. -/
def cdec (r : Rules) (st : CState) (n : Nat) : Option (Nat × RState) :=
  (st.pairs[n]?).bind fun p => (r.decode p.2).map fun q => (p.1, q)

theorem cdec_eq {r : Rules} {st : CState} {n : Nat} {x : Nat × RState} :
    cdec r st n = some x ↔ ∃ p, st.pairs[n]? = some p ∧ p.1 = x.1 ∧ r.decode p.2 = some x.2 := by
  unfold cdec
  rw [Option.bind_eq_some_iff]
  constructor
  · rintro ⟨p, h1, h2⟩
    obtain ⟨q, h3, rfl⟩ := Option.map_eq_some_iff.mp h2
    exact ⟨p, h1, rfl, h3⟩
  · rintro ⟨p, h1, h2, h3⟩
    refine ⟨p, h1, ?_⟩
    rw [h3, h2]
    rfl

/-- What holds whenever states are made and transitions are added; the states below `k` have left the agenda. -/
structure Base (num : Sym → Nat) (L : Graph) (spec : RuleSpec) (r : Rules) (st : CState) (k : Nat) : Prop where
  rules : RInv num r spec
  numbers : ∀ p n, mapGet st.numbers p = some n ↔ st.pairs[n]? = some p
  length : st.numbers.length = st.pairs.length
  states : st.result.states.length = st.pairs.length
  valid : ∀ p ∈ st.pairs, p.1 < L.states.length ∧ ∃ q, r.decode p.2 = some q
  first : st.pairs[0]? = some (0, 0)
  agenda : st.agenda = List.range' k (st.pairs.length - k)
  le : k ≤ st.pairs.length
  sound : ∀ n, ∀ a ∈ st.result.arcs n, ∃ x y, cdec r st n = some x ∧ cdec r st a.target = some y ∧
    JStep L spec spec.CodePasses x a.inp a.out a.weight y
  finals : ∀ n, st.result.final n = none

/-- Nothing is lost. -/
structure Later (st st' : CState) : Prop where
  pairs : ∀ (n : Nat) p, st.pairs[n]? = some p → st'.pairs[n]? = some p
  arcs : ∀ n, ∀ a ∈ st.result.arcs n, a ∈ st'.result.arcs n

theorem Later.refl (st : CState) : Later st st := ⟨fun _ _ h => h, fun _ _ h => h⟩

theorem Later.trans {a b c : CState} (h : Later a b) (h' : Later b c) : Later a c :=
  ⟨fun n p hp => h'.pairs n p (h.pairs n p hp), fun n x hx => h'.arcs n x (h.arcs n x hx)⟩

theorem cdec_later {r r' : Rules} {st st' : CState} (h : Later st st') (hg : Grows r.decode r'.decode) {n : Nat}
    {x : Nat × RState} (hx : cdec r st n = some x) : cdec r' st' n = some x := by
  rw [cdec_eq] at *
  obtain ⟨p, h1, h2, h3⟩ := hx
  exact ⟨p, h.pairs _ _ h1, h2, hg _ _ h3⟩

theorem Base.grow {r r' : Rules} {st : CState} {k : Nat} (h : Base num L spec r st k) (hr : RInv num r' spec)
    (hg : Grows r.decode r'.decode) : Base num L spec r' st k := by
  refine ⟨hr, h.numbers, h.length, h.states, ?_, h.first, h.agenda, h.le, ?_, h.finals⟩
  · intro p hp
    obtain ⟨h1, q, h2⟩ := h.valid p hp
    exact ⟨h1, q, hg _ _ h2⟩
  · intro n a ha
    obtain ⟨x, y, h1, h2, h3⟩ := h.sound n a ha
    exact ⟨x, y, cdec_later (Later.refl _) hg h1, cdec_later (Later.refl _) hg h2, h3⟩

theorem range'_snoc {k n : Nat} (h : k ≤ n) : List.range' k (n - k) ++ [n] = List.range' k (n + 1 - k) := by
  have : n + 1 - k = (n - k) + 1 := by omega
  rw [this, List.range'_concat]
  congr 2
  omega

theorem state_base {r : Rules} {st : CState} {k : Nat} (h : Base num L spec r st k) {p : Nat × Nat}
    (hp : p.1 < L.states.length ∧ ∃ q, r.decode p.2 = some q) : ∃ n st', st.state p = .ok (n, st') ∧
      Base num L spec r st' k ∧ Later st st' ∧ st'.pairs[n]? = some p := by
  unfold CState.state
  cases hg : mapGet st.numbers p with
  | some n => exact ⟨n, st, rfl, h, Later.refl _, (h.numbers p n).mp hg⟩
  | none =>
    dsimp only
    have hp0 : p ≠ (0, 0) := by
      intro e
      rw [(h.numbers p 0).mpr (e ▸ h.first)] at hg
      cases hg
    have e : st.mapState p = .ok (st.pairs.length, ⟨mapPut st.numbers p st.pairs.length, st.pairs ++ [p],
        st.agenda ++ [st.pairs.length], st.result.addState.1⟩) := by
      unfold CState.mapState
      dsimp only
      rw [if_neg hp0]
      have h1 : st.result.addState.2 = st.pairs.length := h.states
      rw [h1, h.length, if_neg (by simp)]
    have hlater : Later st ⟨mapPut st.numbers p st.pairs.length, st.pairs ++ [p],
        st.agenda ++ [st.pairs.length], st.result.addState.1⟩ := by
      refine ⟨?_, ?_⟩
      · intro n p' h'
        rw [List.getElem?_append_left (List.getElem?_eq_some_iff.mp h').1]
        exact h'
      · intro n a ha
        dsimp only
        rw [arcs_addState]
        exact ha
    refine ⟨_, _, e, ⟨h.rules, ?_, ?_, ?_, ?_, hlater.pairs _ _ h.first, ?_, ?_, ?_, ?_⟩, hlater, by simp⟩
    · intro p' n
      dsimp only
      rw [mapGet_put]
      by_cases hpp : p' = p
      · rw [if_pos hpp, hpp]
        constructor
        · intro h'
          injection h' with h'
          rw [← h']
          simp
        · intro h'
          by_cases hn : n < st.pairs.length
          · rw [List.getElem?_append_left hn] at h'
            rw [(h.numbers p n).mpr h'] at hg
            cases hg
          · have := (List.getElem?_eq_some_iff.mp h').1
            simp only [List.length_append, List.length_singleton] at this
            congr 1
            omega
      · rw [if_neg hpp, h.numbers]
        constructor
        · intro h'; exact hlater.pairs _ _ h'
        · intro h'
          by_cases hn : n < st.pairs.length
          · rw [List.getElem?_append_left hn] at h'; exact h'
          · exfalso
            have h'' := (List.getElem?_eq_some_iff.mp h').1
            simp only [List.length_append, List.length_singleton] at h''
            have : n = st.pairs.length := by omega
            subst this
            simp at h'
            exact hpp h'.symm
    · dsimp only [mapPut]
      rw [List.length_cons, List.length_append, List.length_singleton, ← h.length]
      congr 2
      rw [List.filter_eq_self]
      intro e' he'
      simp only [ne_eq, decide_eq_true_eq]
      intro heq
      have := mapGet_isSome_of_mem (m := st.numbers) (k := p) (v := e'.2) (by rw [← heq]; exact he')
      rw [hg] at this
      cases this
    · simp [Graph.addState, h.states]
    · intro p' hp'
      rcases List.mem_append.mp hp' with hp' | hp'
      · exact h.valid p' hp'
      · rw [List.mem_singleton.mp hp']; exact hp
    · dsimp only
      rw [h.agenda, range'_snoc h.le]
      simp
    · have := h.le
      simp only [List.length_append, List.length_singleton]
      omega
    · intro n a ha
      dsimp only at ha
      rw [arcs_addState] at ha
      obtain ⟨x, y, h1, h2, h3⟩ := h.sound n a ha
      exact ⟨x, y, cdec_later hlater (Grows.refl _) h1, cdec_later hlater (Grows.refl _) h2, h3⟩
    · intro n
      exact h.finals n

/-- A transition that is to be added, to a pair of states. -/
abbrev Entry := Sym × Sym × Int × (Nat × Nat)

/-- The transition has been added. -/
def Added (st : CState) (n : Nat) (e : Entry) : Prop :=
  ∃ a ∈ st.result.arcs n, a.inp = e.1 ∧ a.out = e.2.1 ∧ a.weight = e.2.2.1 ∧ st.pairs[a.target]? = some e.2.2.2

theorem Added.later {st st' : CState} (h : Later st st') {n : Nat} {e : Entry} (ha : Added st n e) : Added st' n e := by
  obtain ⟨a, h1, h2, h3, h4, h5⟩ := ha
  exact ⟨a, h.arcs _ _ h1, h2, h3, h4, h.pairs _ _ h5⟩

/-- The transition is one that lexicon and rules together have. -/
def Allowed (L : Graph) (spec : RuleSpec) (r : Rules) (x : Nat × RState) (e : Entry) : Prop :=
  e.2.2.2.1 < L.states.length ∧ ∃ q, r.decode e.2.2.2.2 = some q ∧
    JStep L spec spec.CodePasses x e.1 e.2.1 e.2.2.1 (e.2.2.2.1, q)

theorem add_base {r : Rules} {st : CState} {k : Nat} (h : Base num L spec r st k) {n : Nat} {x : Nat × RState}
    (hx : cdec r st n = some x) {e : Entry} (he : Allowed L spec r x e) :
    ∃ st', st.add n e.1 e.2.1 e.2.2.1 e.2.2.2 = .ok st' ∧ Base num L spec r st' k ∧ Later st st' ∧ Added st' n e := by
  obtain ⟨h1, q, h2, h3⟩ := he
  obtain ⟨m, st', e1, h4, h5, h6⟩ := state_base h ⟨h1, q, h2⟩
  unfold CState.add
  rw [e1, Outcome.bind]
  dsimp only
  have hn : n < st'.pairs.length := by
    obtain ⟨p, hp, _⟩ := cdec_eq.mp (cdec_later h5 (Grows.refl _) hx)
    exact (List.getElem?_eq_some_iff.mp hp).1
  have hm : m < st'.pairs.length := (List.getElem?_eq_some_iff.mp h6).1
  have hlater : Later st' { st' with result := st'.result.addTransition n ⟨m, e.1, e.2.1, e.2.2.1⟩ } := by
    refine ⟨fun _ _ h => h, ?_⟩
    intro j a ha
    dsimp only
    rw [arcs_addTransition]
    by_cases hj : j = n
    · rw [if_pos hj]; subst hj; exact List.mem_append_left _ ha
    · rw [if_neg hj]; exact ha
  refine ⟨_, rfl, ⟨h4.rules, h4.numbers, h4.length, ?_, h4.valid, h4.first, h4.agenda, h4.le, ?_, ?_⟩, h5.trans hlater, ?_⟩
  · dsimp only
    rw [length_addTransition, h4.states]
    dsimp only
    omega
  · intro j a ha
    dsimp only at ha
    rw [arcs_addTransition] at ha
    by_cases hj : j = n
    · rw [if_pos hj] at ha
      subst hj
      rcases List.mem_append.mp ha with ha | ha
      · exact h4.sound _ _ ha
      · rw [List.mem_singleton.mp ha]
        refine ⟨x, (e.2.2.2.1, q), cdec_later h5 (Grows.refl _) hx, cdec_eq.mpr ⟨_, h6, rfl, h2⟩, h3⟩
    · rw [if_neg hj] at ha
      exact h4.sound _ _ ha
  · intro j
    dsimp only
    rw [final_addTransition]
    exact h4.finals j
  · refine ⟨⟨m, e.1, e.2.1, e.2.2.1⟩, ?_, rfl, rfl, rfl, h6⟩
    dsimp only
    rw [arcs_addTransition, if_pos rfl]
    simp

theorem addAll_base {r : Rules} {k : Nat} {n : Nat} {x : Nat × RState} : ∀ (es : List Entry) (st : CState),
    Base num L spec r st k → cdec r st n = some x → (∀ e ∈ es, Allowed L spec r x e) →
    ∃ st', CState.addAll n es st = .ok st' ∧ Base num L spec r st' k ∧ Later st st' ∧ ∀ e ∈ es, Added st' n e
  | [], st, h, _, _ => ⟨st, rfl, h, Later.refl _, by simp⟩
  | e :: es, st, h, hx, he => by
    obtain ⟨st1, e1, h1, h2, h3⟩ := add_base h hx (he e (List.mem_cons_self ..))
    obtain ⟨st2, e2, i1, i2, i3⟩ := addAll_base es st1 h1 (cdec_later h2 (Grows.refl _) hx)
      (fun e' he' => he e' (List.mem_cons_of_mem _ he'))
    refine ⟨st2, ?_, i1, h2.trans i2, ?_⟩
    · rw [CState.addAll, e1]; exact e2
    · intro e' he'
      rcases List.mem_cons.mp he' with rfl | he'
      · exact h3.later i2
      · exact i3 e' he'

/-- The transition of lexicon and rules together has been added. -/
def Present (r : Rules) (st : CState) (n : Nat) (i o : Sym) (w : Int) (y : Nat × RState) : Prop :=
  ∃ a ∈ st.result.arcs n, a.inp = i ∧ a.out = o ∧ a.weight = w ∧ cdec r st a.target = some y

theorem Present.later {r r' : Rules} {st st' : CState} {n : Nat} {i o : Sym} {w : Int} {y : Nat × RState}
    (h : Present r st n i o w y) (hl : Later st st') (hg : Grows r.decode r'.decode) : Present r' st' n i o w y := by
  obtain ⟨a, h1, h2, h3, h4, h5⟩ := h
  exact ⟨a, hl.arcs _ _ h1, h2, h3, h4, cdec_later hl hg h5⟩

theorem lexiconLoop_base (hn : Function.Injective num) (hL : WF L) (hf : spec.Fine) {k n l c : Nat} {q : RState} :
    ∀ (es : List (Sym × List Arc)) (r : Rules) (st : CState), Base num L spec r st k → st.pairs[n]? = some (l, c) →
    r.decode c = some q → (∀ e ∈ es, ∀ a ∈ e.2, a ∈ L.arcs l ∧ a.inp ≠ identity ∧ a.out = e.1) →
    ∃ r' st', lexiconLoop num c n es r st = .ok (r', st') ∧ Base num L spec r' st' k ∧ Later st st' ∧
      Grows r.decode r'.decode ∧ ∀ e ∈ es, ∀ a ∈ e.2,
        ((a.out = epsilon ∨ spec.CodePasses a.out) → Present r' st' n a.inp a.out a.weight (a.target, q)) ∧
        (¬ (a.out = epsilon ∨ spec.CodePasses a.out) → ∀ o w q', spec.Step q a.out o w q' →
          Present r' st' n a.inp o (a.weight + w) (a.target, q'))
  | [], r, st, h, _, _, _ => ⟨r, st, rfl, h, Later.refl _, Grows.refl _, by simp⟩
  | e :: es, r, st, h, hp, hq, he => by
    have hx : cdec r st n = some (l, q) := cdec_eq.mpr ⟨_, hp, rfl, hq⟩
    have he0 := he e (List.mem_cons_self ..)
    have hes : ∀ e ∈ es, ∀ a ∈ e.2, a ∈ L.arcs l ∧ a.inp ≠ identity ∧ a.out = e.1 :=
      fun e' he' => he e' (List.mem_cons_of_mem _ he')
    rw [lexiconLoop]
    by_cases hpass : e.1 = epsilon ∨ spec.CodePasses e.1
    · rw [if_pos (by rw [known_iff r h.rules]; exact hpass)]
      obtain ⟨st1, e1, h1, h2, h3⟩ := addAll_base (lexiconSkip e.2 c) st h hx (by
        intro e' he'
        obtain ⟨a, ha, rfl⟩ := List.mem_map.mp he'
        obtain ⟨a1, a2, a3⟩ := he0 a ha
        exact ⟨hL.targets _ _ a1, q, hq, .skip a1 a2 (by rw [a3]; exact hpass)⟩)
      rw [e1, Outcome.bind]
      obtain ⟨r2, st2, e2, i1, i2, i3, i4⟩ := lexiconLoop_base hn hL hf es r st1 h1 (h2.pairs _ _ hp) hq hes
      refine ⟨r2, st2, e2, i1, h2.trans i2, i3, ?_⟩
      intro e' he' a ha
      rcases List.mem_cons.mp he' with rfl | he'
      · refine ⟨fun _ => ?_, fun hno => absurd (by rw [(he0 a ha).2.2]; exact hpass) hno⟩
        obtain ⟨b, b1, b2, b3, b4, b5⟩ := (h3 _ (List.mem_map_of_mem ha)).later i2
        exact ⟨b, b1, b2, b3, b4, cdec_eq.mpr ⟨_, b5, rfl, i3 _ _ hq⟩⟩
      · exact i4 e' he' a ha
    · rw [if_neg (by rw [known_iff r h.rules]; exact hpass)]
      obtain ⟨set, r1, e1, g1, g2, g3⟩ := get_right hn r spec h.rules hf c q e.1 hq
      rw [e1, Outcome.bind]
      dsimp only
      have h' := h.grow g1 g2
      obtain ⟨st1, e2, h1, h2, h3⟩ := addAll_base (composeSets e.2 set) st h' (cdec_later (Later.refl _) g2 hx) (by
        intro e' he'
        obtain ⟨a, ha, hb⟩ := List.mem_flatMap.mp he'
        obtain ⟨b, hb', rfl⟩ := List.mem_map.mp hb
        obtain ⟨a1, a2, a3⟩ := he0 a ha
        obtain ⟨_, q', b1, b2⟩ := g3.sound b hb'
        exact ⟨hL.targets _ _ a1, q', b1, .both a1 a2 (by rw [a3]; exact hpass) (by rw [a3]; exact b2)⟩)
      rw [e2, Outcome.bind]
      obtain ⟨r2, st2, e3, i1, i2, i3, i4⟩ := lexiconLoop_base hn hL hf es r1 st1 h1 (h2.pairs _ _ hp) (g2 _ _ hq) hes
      refine ⟨r2, st2, e3, i1, h2.trans i2, g2.trans i3, ?_⟩
      intro e' he' a ha
      rcases List.mem_cons.mp he' with rfl | he'
      · refine ⟨fun hyes => absurd (by rw [← (he0 a ha).2.2]; exact hyes) hpass, ?_⟩
        intro _ o w q' hs
        rw [(he0 a ha).2.2] at hs
        obtain ⟨b, b1, _, b2, b3, b4⟩ := g3.complete _ _ _ hs
        have := h3 (a.inp, b.out, a.weight + b.weight, (a.target, b.target))
          (List.mem_flatMap.mpr ⟨a, ha, List.mem_map.mpr ⟨b, b1, rfl⟩⟩)
        obtain ⟨d, d1, d2, d3, d4, d5⟩ := this.later i2
        exact ⟨d, d1, d2, by rw [d3, ← b2], by rw [d4, ← b3], cdec_eq.mpr ⟨_, d5, rfl, i3 _ _ b4⟩⟩
      · exact i4 e' he' a ha

/-- All transitions of the state are there. -/
def Complete (L : Graph) (spec : RuleSpec) (r : Rules) (st : CState) (n : Nat) : Prop :=
  ∀ x i o w y, cdec r st n = some x → JStep L spec spec.CodePasses x i o w y → Present r st n i o w y

theorem Complete.later {r r' : Rules} {st st' : CState} {k n : Nat} (hb : Base num L spec r st k) (hn : n < st.pairs.length)
    (h : Complete L spec r st n) (hl : Later st st') (hg : Grows r.decode r'.decode) : Complete L spec r' st' n := by
  intro x i o w y hx hj
  have hp : st.pairs[n]? = some st.pairs[n] := List.getElem?_eq_getElem hn
  obtain ⟨_, q, hq⟩ := hb.valid _ (List.mem_of_getElem? hp)
  have hx0 : cdec r st n = some (st.pairs[n].1, q) := cdec_eq.mpr ⟨_, hp, rfl, hq⟩
  have := cdec_later hl hg hx0
  rw [hx] at this
  injection this with this
  subst this
  exact (h _ _ _ _ _ hx0 hj).later hl hg

theorem computeState_base (hn : Function.Injective num) (hL : WF L) (hf : spec.Fine) {k n : Nat} {r : Rules} {st : CState}
    (h : Base num L spec r st k) (hlt : n < st.pairs.length) : ∃ r' st',
      computeState num (Fst.build num false L) n r st = .ok (r', st') ∧ Base num L spec r' st' k ∧ Later st st' ∧
      Grows r.decode r'.decode ∧ Complete L spec r' st' n := by
  have hp : st.pairs[n]? = some st.pairs[n] := List.getElem?_eq_getElem hlt
  obtain ⟨hl, q, hq⟩ := h.valid _ (List.mem_of_getElem? hp)
  generalize st.pairs[n] = p at hp hl hq
  obtain ⟨l, c⟩ := p
  dsimp only at hl hq
  obtain ⟨m, hm, hm1, hm2⟩ := lex_map (num := num) hl
  unfold computeState
  rw [hp]
  dsimp only
  rw [hm]
  dsimp only
  obtain ⟨r1, st1, e1, h1, h2, h3, h4⟩ := lexiconLoop_base hn hL hf m r st h hp hq hm1
  rw [e1, Outcome.bind]
  dsimp only
  obtain ⟨set, r2, e2, g1, g2, g3⟩ := get_right hn r1 spec h1.rules hf c q epsilon (h3 _ _ hq)
  rw [e2, Outcome.bind]
  dsimp only
  have hx : cdec r2 st1 n = some (l, q) := cdec_eq.mpr ⟨_, h2.pairs _ _ hp, rfl, g2 _ _ (h3 _ _ hq)⟩
  obtain ⟨st2, e3, i1, i2, i3⟩ := addAll_base (ruleSkip set l) st1 (h1.grow g1 g2) hx (by
    intro e' he'
    obtain ⟨b, hb, rfl⟩ := List.mem_map.mp he'
    obtain ⟨b0, q', b1, b2⟩ := g3.sound b hb
    refine ⟨hl, q', b1, ?_⟩
    dsimp only
    rw [b0]
    exact .rule b2)
  rw [e3, Outcome.bind]
  refine ⟨r2, st2, rfl, i1, h2.trans i2, h3.trans g2, ?_⟩
  intro x i o w y hx' hj
  rw [cdec_later i2 (Grows.refl _) hx] at hx'
  injection hx' with hx'
  subst hx'
  cases hj with
  | skip ha hi hpass =>
    obtain ⟨e, he, hae⟩ := hm2 _ ha hi
    exact ((h4 e he _ hae).1 hpass).later i2 g2
  | both ha hi hpass hs =>
    obtain ⟨e, he, hae⟩ := hm2 _ ha hi
    exact ((h4 e he _ hae).2 hpass _ _ _ hs).later i2 g2
  | rule hs =>
    obtain ⟨b, b1, b0, b2, b3, b4⟩ := g3.complete _ _ _ hs
    obtain ⟨d, d1, d2, d3, d4, d5⟩ := i3 _ (List.mem_map_of_mem b1)
    exact ⟨d, d1, by rw [d2, b0], by rw [d3, ← b2], by rw [d4, ← b3], cdec_eq.mpr ⟨_, d5, rfl, b4⟩⟩

/-! ## The number of states -/

/-- All states of the rules together. -/
def RuleSpec.states : RuleSpec → List RState
  | .one g => (List.range g.states.length).map .one
  | .both a b => (a.states ×ˢ b.states).map fun p => .both p.1 p.2

theorem decode_mem : ∀ (r : Rules) (spec : RuleSpec), RInv num r spec → ∀ n s, r.decode n = some s → s ∈ spec.states
  | .rule f sy, .both _ _, hr, _, _, _ => hr.elim
  | .pair a b t, .one g, hr, _, _, _ => hr.elim
  | .rule f sy, .one g, hr, n, s, hs => by
    rw [Rules.decode] at hs
    split_ifs at hs with hlt
    injection hs with hs
    subst hs
    rw [hr.1.length] at hlt
    exact List.mem_map.mpr ⟨n, List.mem_range.mpr hlt, rfl⟩
  | .pair a b t, .both ya yb, hr, n, s, hs => by
    rw [decode_pair, tableDecode_eq] at hs
    obtain ⟨p, s1, s2, h1, h2, h3, rfl⟩ := hs
    exact List.mem_map.mpr ⟨(s1, s2), List.mem_product.mpr ⟨decode_mem a ya hr.1 _ _ h2, decode_mem b yb hr.2.1 _ _ h3⟩, rfl⟩

/-- No more states than pairs of a lexicon state and a state of the rules. -/
theorem pairs_bound {r : Rules} {st : CState} {k : Nat} (h : Base num L spec r st k) :
    st.pairs.length ≤ L.states.length * spec.states.length := by
  have hnodup : (List.range st.pairs.length).Nodup := List.nodup_range
  have hsome : ∀ n ∈ List.range st.pairs.length, ∃ x, cdec r st n = some x ∧ x ∈ List.range L.states.length ×ˢ spec.states := by
    intro n hn
    have hlt : n < st.pairs.length := List.mem_range.mp hn
    have hp : st.pairs[n]? = some st.pairs[n] := List.getElem?_eq_getElem hlt
    obtain ⟨h1, q, hq⟩ := h.valid _ (List.mem_of_getElem? hp)
    exact ⟨(st.pairs[n].1, q), cdec_eq.mpr ⟨_, hp, rfl, hq⟩,
      List.mem_product.mpr ⟨List.mem_range.mpr h1, decode_mem r spec h.rules _ _ hq⟩⟩
  have hinj : ∀ n ∈ List.range st.pairs.length, ∀ n' ∈ List.range st.pairs.length, cdec r st n = cdec r st n' → n = n' := by
    intro n hn n' hn' he
    obtain ⟨x, hx, _⟩ := hsome n hn
    have hx' := hx
    rw [he] at hx'
    obtain ⟨p, h1, h2, h3⟩ := cdec_eq.mp hx
    obtain ⟨p', h1', h2', h3'⟩ := cdec_eq.mp hx'
    have e2 := decode_inj r spec h.rules _ _ _ h3 h3'
    have e : p = p' := Prod.ext (by rw [h2, h2']) e2
    subst e
    have := (h.numbers p n).mpr h1
    rw [(h.numbers p n').mpr h1'] at this
    injection this with this
    exact this.symm
  have hmap : ((List.range st.pairs.length).map (cdec r st)).Nodup := List.Nodup.map_on hinj hnodup
  have hsub : (List.range st.pairs.length).map (cdec r st) ⊆ (List.range L.states.length ×ˢ spec.states).map some := by
    intro y hy
    obtain ⟨n, hn, rfl⟩ := List.mem_map.mp hy
    obtain ⟨x, hx, hx'⟩ := hsome n hn
    rw [hx]
    exact List.mem_map_of_mem hx'
  have := (hmap.subperm hsub).length_le
  simpa [List.length_product] using this

theorem agendaLoop_base (hn : Function.Injective num) (hL : WF L) (hf : spec.Fine) : ∀ (fuel : Nat) (r : Rules) (st : CState)
    (k : Nat), Base num L spec r st k → (∀ n < k, Complete L spec r st n) →
    L.states.length * spec.states.length < fuel + k →
    ∃ r' st', agendaLoop num (Fst.build num false L) fuel r st = .ok (r', st') ∧ Base num L spec r' st' st'.pairs.length ∧
      Later st st' ∧ Grows r.decode r'.decode ∧ ∀ n < st'.pairs.length, Complete L spec r' st' n
  | 0, r, st, k, h, _, hk => by
    have := pairs_bound h
    have := h.le
    omega
  | fuel + 1, r, st, k, h, hc, hk => by
    rw [agendaLoop]
    have ha := h.agenda
    by_cases hlt : k < st.pairs.length
    · have : st.pairs.length - k = (st.pairs.length - (k + 1)) + 1 := by omega
      rw [this, List.range'_succ] at ha
      rw [ha]
      dsimp only
      have hb : Base num L spec r { st with agenda := List.range' (k + 1) (st.pairs.length - (k + 1)) } (k + 1) :=
        ⟨h.rules, h.numbers, h.length, h.states, h.valid, h.first, rfl, hlt, h.sound, h.finals⟩
      obtain ⟨r1, st1, e1, h1, h2, h3, h4⟩ := computeState_base hn hL hf hb hlt
      rw [e1, Outcome.bind]
      dsimp only
      have h2' : Later st st1 := ⟨h2.pairs, h2.arcs⟩
      obtain ⟨r2, st2, e2, i1, i2, i3, i4⟩ := agendaLoop_base hn hL hf fuel r1 st1 (k + 1) h1 (by
        intro n hnk
        by_cases hnk' : n = k
        · subst hnk'; exact h4
        · exact (hc n (by omega)).later h (by omega) h2' h3) (by omega)
      exact ⟨r2, st2, e2, i1, h2'.trans i2, h3.trans i3, i4⟩
    · have hke : k = st.pairs.length := by have := h.le; omega
      subst hke
      rw [Nat.sub_self] at ha
      rw [ha]
      exact ⟨r, st, rfl, h, Later.refl _, Grows.refl _, hc⟩

/-! ## Final states -/

theorem lex_final {s : Nat} (hs : s < L.states.length) : (Fst.build num false L).getFinal s = .ok (L.final s) := by
  have hlen : (L.sortArcs num).states.length = L.states.length := by simp [Graph.sortArcs]
  unfold Fst.getFinal Fst.build
  dsimp only
  rw [if_neg (by rw [List.length_map, hlen]; omega), List.getElem?_map, List.getElem?_range (by omega)]
  rfl

/-- The sum of two final weights. -/
def FinalOf (L : Graph) (spec : RuleSpec) (x : Nat × RState) (w : Int) : Prop :=
  ∃ w1 w2, L.final x.1 = some w1 ∧ spec.Final x.2 w2 ∧ w = w1 + w2

theorem setFinals_right {r : Rules} (hr : RInv num r spec) : ∀ (ps : List (Nat × Nat)) (s : Nat) (g : Graph),
    (∀ p ∈ ps, p.1 < L.states.length ∧ ∃ q, r.decode p.2 = some q) → (∀ n, s ≤ n → g.final n = none) →
    s + ps.length ≤ g.states.length → ∃ g', setFinals (Fst.build num false L) r ps s g = .ok g' ∧
      g'.states.length = g.states.length ∧ (∀ n, g'.arcs n = g.arcs n) ∧ (∀ n < s, g'.final n = g.final n) ∧
      (∀ n, s + ps.length ≤ n → g'.final n = none) ∧
      ∀ (i : Nat) p q, ps[i]? = some p → r.decode p.2 = some q → ∀ w, g'.final (s + i) = some w ↔ FinalOf L spec (p.1, q) w
  | [], s, g, _, h2, _ => ⟨g, rfl, rfl, fun _ => rfl, fun _ _ => rfl, h2, by simp⟩
  | p :: ps, s, g, h1, h2, h3 => by
    obtain ⟨hp1, q, hq⟩ := h1 p (List.mem_cons_self ..)
    obtain ⟨v, ev, hv⟩ := getFinal_right r spec hr _ _ hq
    have hlen : s + ps.length + 1 ≤ g.states.length := by simp only [List.length_cons] at h3; omega
    have key : ∀ g1 : Graph, g1.states.length = g.states.length → (∀ n, g1.arcs n = g.arcs n) →
        (∀ n, n ≠ s → g1.final n = g.final n) → (∀ w, g1.final s = some w ↔ FinalOf L spec (p.1, q) w) →
        ∃ g', setFinals (Fst.build num false L) r ps (s + 1) g1 = .ok g' ∧
          g'.states.length = g.states.length ∧ (∀ n, g'.arcs n = g.arcs n) ∧ (∀ n < s, g'.final n = g.final n) ∧
          (∀ n, s + (p :: ps).length ≤ n → g'.final n = none) ∧
          ∀ (i : Nat) p' q', (p :: ps)[i]? = some p' → r.decode p'.2 = some q' → ∀ w, g'.final (s + i) = some w ↔
            FinalOf L spec (p'.1, q') w := by
      intro g1 k1 k2 k3 k4
      obtain ⟨g', e, i1, i2, i3, i4, i5⟩ := setFinals_right hr ps (s + 1) g1 (fun p' hp' => h1 p' (List.mem_cons_of_mem _ hp'))
        (fun n hn => by rw [k3 n (by omega)]; exact h2 n (by omega)) (by omega)
      refine ⟨g', e, by rw [i1, k1], fun n => by rw [i2, k2], fun n hn => by rw [i3 n (by omega), k3 n (by omega)], ?_, ?_⟩
      · intro n hn
        simp only [List.length_cons] at hn
        exact i4 n (by omega)
      · intro i p' q' hi hq'
        cases i with
        | zero =>
          have : p = p' := by simpa using hi
          subst this
          rw [hq] at hq'
          injection hq' with hq'
          subst hq'
          intro w
          rw [Nat.add_zero, i3 s (by omega)]
          exact k4 w
        | succ i =>
          have := i5 i p' q' (by simpa using hi) hq'
          intro w
          rw [← this w, Nat.add_assoc, Nat.add_comm 1 i]
    rw [setFinals, lex_final hp1, Outcome.bind, ev, Outcome.bind]
    have hsame : ¬ (∃ w, FinalOf L spec (p.1, q) w) → ∀ w, g.final s = some w ↔ FinalOf L spec (p.1, q) w := by
      intro hno w
      rw [h2 s (Nat.le_refl _)]
      constructor
      · intro h; cases h
      · intro h; exact absurd ⟨w, h⟩ hno
    cases hw : L.final p.1 with
    | none =>
      dsimp only
      refine key g rfl (fun _ => rfl) (fun _ _ => rfl) (hsame ?_)
      rintro ⟨w, w1, w2, h, _⟩
      rw [hw] at h; cases h
    | some w1 =>
      cases v with
      | none =>
        dsimp only
        refine key g rfl (fun _ => rfl) (fun _ _ => rfl) (hsame ?_)
        rintro ⟨w, w1, w2, _, h, _⟩
        rw [← hv] at h; cases h
      | some w2 =>
        dsimp only
        refine key _ ?_ ?_ ?_ ?_
        · rw [length_setFinal]; omega
        · intro n; rw [arcs_setFinal]
        · intro n hn; rw [final_setFinal, if_neg hn]
        · intro w
          rw [final_setFinal, if_pos rfl]
          constructor
          · intro h
            injection h with h
            exact ⟨w1, w2, hw, (hv w2).mp rfl, h.symm⟩
          · rintro ⟨u1, u2, hu1, hu2, rfl⟩
            rw [hw] at hu1
            rw [← hv] at hu2
            injection hu1 with hu1
            injection hu2 with hu2
            rw [hu1, hu2]

/-- The result of the composition: states stand for pairs of states, and it has the transitions and final weights of lexicon and
rules together. -/
theorem compose_product (hn : Function.Injective num) (hL : WF L) (hf : spec.Fine) {fuel : Nat}
    (hfuel : L.states.length * spec.states.length < fuel) :
    ∃ g, composeWithRules fuel num L (spec.build num) = .ok g ∧ WF g ∧ ∃ mean : Nat → Option (Nat × RState),
      mean 0 = some (0, spec.start) ∧
      (∀ n, ∀ a ∈ g.arcs n, ∃ x y, mean n = some x ∧ mean a.target = some y ∧
        JStep L spec spec.CodePasses x a.inp a.out a.weight y) ∧
      (∀ n x i o w y, mean n = some x → JStep L spec spec.CodePasses x i o w y →
        ∃ a ∈ g.arcs n, a.inp = i ∧ a.out = o ∧ a.weight = w ∧ mean a.target = some y) ∧
      ∀ n x, mean n = some x → ∀ w, g.final n = some w ↔ FinalOf L spec x w := by
  obtain ⟨hr, hr0⟩ := build_right hn spec hf
  have hinit : Base num L spec (spec.build num) ⟨[((0, 0), 0)], [(0, 0)], [0], Graph.init⟩ 0 := by
    refine ⟨hr, ?_, rfl, rfl, ?_, rfl, rfl, Nat.zero_le _, ?_, ?_⟩
    · intro p n
      constructor
      · intro hp
        have := mapGet_mem hp
        simp only [List.mem_singleton, Prod.mk.injEq] at this
        rw [this.1, this.2]; rfl
      · intro hp
        cases n with
        | zero =>
          have : (0, 0) = p := by simpa using hp
          subst this; rfl
        | succ n => simp at hp
    · intro p hp
      rw [List.mem_singleton.mp hp]
      exact ⟨hL.nonempty, _, hr0⟩
    · intro n a ha
      cases n with
      | zero => cases ha
      | succ n => cases ha
    · intro n; rfl
  obtain ⟨r, st, e, h1, h2, h3, h4⟩ := agendaLoop_base hn hL hf fuel _ _ 0 hinit (by omega) (by omega)
  obtain ⟨g, eg, g1, g2, _, g4, g5⟩ := setFinals_right h1.rules st.pairs 0 st.result h1.valid (fun n _ => h1.finals n)
    (by rw [h1.states]; omega)
  refine ⟨g, ?_, ?_, cdec r st, ?_, ?_, ?_, ?_⟩
  · unfold composeWithRules
    have : (CState.mk [] [] [] Graph.init).mapState (0, 0) = .ok (0, ⟨[((0, 0), 0)], [(0, 0)], [0], Graph.init⟩) := rfl
    dsimp only
    rw [this, Outcome.bind]
    dsimp only
    rw [e, Outcome.bind]
    exact eg
  · have hlen : ∀ n x, cdec r st n = some x → n < g.states.length := by
      intro n x hx
      obtain ⟨p, hp, _⟩ := cdec_eq.mp hx
      have := (List.getElem?_eq_some_iff.mp hp).1
      rw [g1, h1.states]
      exact this
    have h0 : cdec r st 0 = some (0, spec.start) := cdec_eq.mpr ⟨(0, 0), h1.first, rfl, h3 _ _ hr0⟩
    refine ⟨hlen 0 _ h0, ?_, ?_⟩
    · intro s a ha
      rw [g2] at ha
      obtain ⟨x, y, _, hy, _⟩ := h1.sound s a ha
      exact hlen _ _ hy
    · intro s w hs
      by_contra hcon
      rw [g4 s (by rw [g1, h1.states] at hcon; omega)] at hs
      cases hs
  · exact cdec_eq.mpr ⟨(0, 0), h1.first, rfl, h3 _ _ hr0⟩
  · intro n a ha
    rw [g2] at ha
    exact h1.sound n a ha
  · intro n x i o w y hx hj
    obtain ⟨p, hp, _⟩ := cdec_eq.mp hx
    obtain ⟨a, ha, h⟩ := h4 n (List.getElem?_eq_some_iff.mp hp).1 x i o w y hx hj
    exact ⟨a, by rw [g2]; exact ha, h⟩
  · intro n x hx w
    obtain ⟨p, hp, hp1, hp2⟩ := cdec_eq.mp hx
    have := g5 n p x.2 hp hp2 w
    rw [Nat.zero_add, hp1] at this
    exact this

/-! ## Strings -/

/-- Steps one after another. -/
inductive JPath (L : Graph) (spec : RuleSpec) (pass : Sym → Prop) :
    Nat × RState → List (Sym × Sym) → Int → Nat × RState → Prop
  | nil (x : Nat × RState) : JPath L spec pass x [] 0 x
  | cons {x y z : Nat × RState} {i o : Sym} {w w' : Int} {l : List (Sym × Sym)} :
      JStep L spec pass x i o w y → JPath L spec pass y l w' z → JPath L spec pass x ((i, o) :: l) (w + w') z

theorem JStep.congr {pass pass' : Sym → Prop} (h : ∀ s, ∀ a ∈ L.arcs s, pass a.out ↔ pass' a.out) {x y : Nat × RState}
    {i o : Sym} {w : Int} (hj : JStep L spec pass x i o w y) : JStep L spec pass' x i o w y := by
  cases hj with
  | skip h1 h2 h3 => exact .skip h1 h2 (by rw [← h _ _ h1]; exact h3)
  | both h1 h2 h3 h4 => exact .both h1 h2 (by rw [← h _ _ h1]; exact h3) h4
  | rule h1 => exact .rule h1

theorem str_epsilon : str epsilon = [] := by simp [str]

theorem str_ne {x : Sym} (h : x ≠ epsilon) : str x = [x] := by simp [str, h]

theorem inputs_cons (i o : Sym) (l : List (Sym × Sym)) : inputs ((i, o) :: l) = str i ++ inputs l := rfl

theorem outputs_cons (i o : Sym) (l : List (Sym × Sym)) : outputs ((i, o) :: l) = str o ++ outputs l := rfl

theorem jpath_sound {x y : Nat × RState} {lab : List (Sym × Sym)} {w : Int} (h : JPath L spec spec.Passes x lab w y) :
    ∃ l1 w1 w2, Path L x.1 l1 w1 y.1 ∧ inputs l1 = inputs lab ∧ spec.Maps x.2 (outputs l1) (outputs lab) w2 y.2 ∧
      w = w1 + w2 := by
  induction h with
  | nil x => exact ⟨[], 0, 0, .nil _, rfl, .nil _, by simp⟩
  | cons hj _ ih =>
    obtain ⟨l1, w1, w2, h1, h2, h3, h4⟩ := ih
    cases hj with
    | @skip l q a ha hi hp =>
      refine ⟨(a.inp, a.out) :: l1, a.weight + w1, w2, .cons ha h1, by rw [inputs_cons, inputs_cons, h2], ?_, by omega⟩
      rw [outputs_cons, outputs_cons]
      by_cases he : a.out = epsilon
      · rw [he, str_epsilon]; exact h3
      · rw [str_ne he]
        exact .pass he (hp.resolve_left he) h3
    | @both l q q' a o w ha hi hp hs =>
      refine ⟨(a.inp, a.out) :: l1, a.weight + w1, w + w2, .cons ha h1, by rw [inputs_cons, inputs_cons, h2], ?_, by omega⟩
      rw [outputs_cons, outputs_cons, str_ne fun he => hp (.inl he)]
      exact .read (fun he => hp (.inl he)) (fun he => hp (.inr he)) hs h3
    | rule hs => exact ⟨l1, w1, _, h1, by rw [inputs_cons, str_epsilon, h2]; rfl, .eps hs h3, by omega⟩

theorem jpath_complete (hid : ∀ s, ∀ a ∈ L.arcs s, a.inp ≠ identity) {s t : Nat} {l1 : List (Sym × Sym)} {w1 : Int}
    (h : Path L s l1 w1 t) : ∀ {q q' : RState} {m v : List Sym} {w2 : Int}, m = outputs l1 → spec.Maps q m v w2 q' →
    ∃ lab, JPath L spec spec.Passes (s, q) lab (w1 + w2) (t, q') ∧ inputs lab = inputs l1 ∧ outputs lab = v := by
  induction h with
  | nil s =>
    intro q q' m v w2 hm h
    induction h with
    | nil q => exact ⟨[], by simpa using JPath.nil _, rfl, rfl⟩
    | @eps q t' q' o m v w w' hs _ ih =>
      obtain ⟨lab, h1, h2, h3⟩ := ih hm
      refine ⟨(epsilon, o) :: lab, ?_, by rw [inputs_cons, str_epsilon, h2]; rfl, by rw [outputs_cons, h3]⟩
      have := JPath.cons (.rule hs) h1
      rwa [show w + (0 + w') = 0 + (w + w') by omega] at this
    | read => cases hm
    | pass => cases hm
  | @cons s q0 a l w1 ha hp ihp =>
    intro q q' m v w2 hm h
    have hi := hid _ _ ha
    by_cases he : a.out = epsilon
    · rw [outputs_cons, he, str_epsilon] at hm
      obtain ⟨lab, h1, h2, h3⟩ := ihp hm h
      refine ⟨(a.inp, a.out) :: lab, ?_, by rw [inputs_cons, inputs_cons, h2],
        by rw [outputs_cons, he, str_epsilon, h3]; rfl⟩
      have := JPath.cons (.skip ha hi (.inl he)) h1
      rwa [← Int.add_assoc] at this
    · rw [outputs_cons, str_ne he] at hm
      induction h with
      | nil q => cases hm
      | @eps q t' q' o m v w w' hs _ ih =>
        obtain ⟨lab, h1, h2, h3⟩ := ih hm
        refine ⟨(epsilon, o) :: lab, ?_, by rw [inputs_cons, str_epsilon, h2]; rfl, by rw [outputs_cons, h3]⟩
        have := JPath.cons (.rule hs) h1
        rwa [show w + (a.weight + w1 + w') = a.weight + w1 + (w + w') by omega] at this
      | @read q t' q' x o m v w w' hx hnp hs hmaps _ =>
        injection hm with hm1 hm2
        subst hm1
        obtain ⟨lab, h1, h2, h3⟩ := ihp hm2 hmaps
        refine ⟨(a.inp, o) :: lab, ?_, by rw [inputs_cons, inputs_cons, h2], by rw [outputs_cons, h3]⟩
        have := JPath.cons (.both ha hi (fun h => h.elim hx hnp) hs) h1
        rwa [show a.weight + w + (w1 + w') = a.weight + w1 + (w + w') by omega] at this
      | @pass q q' x m v w hx hpass hmaps _ =>
        injection hm with hm1 hm2
        subst hm1
        obtain ⟨lab, h1, h2, h3⟩ := ihp hm2 hmaps
        refine ⟨(a.inp, a.out) :: lab, ?_, by rw [inputs_cons, inputs_cons, h2], by rw [outputs_cons, str_ne hx, h3]; rfl⟩
        have := JPath.cons (.skip ha hi (.inr hpass)) h1
        rwa [← Int.add_assoc] at this

theorem path_jpath {g : Graph} {mean : Nat → Option (Nat × RState)} {pass : Sym → Prop}
    (hs : ∀ n, ∀ a ∈ g.arcs n, ∃ x y, mean n = some x ∧ mean a.target = some y ∧ JStep L spec pass x a.inp a.out a.weight y)
    {n n' : Nat} {l : List (Sym × Sym)} {w : Int} (h : Path g n l w n') : ∀ {x}, mean n = some x →
    ∃ y, mean n' = some y ∧ JPath L spec pass x l w y := by
  induction h with
  | nil n => intro x hx; exact ⟨x, hx, .nil _⟩
  | cons ha _ ih =>
    intro x hx
    obtain ⟨x', y, h1, h2, h3⟩ := hs _ _ ha
    rw [hx] at h1
    injection h1 with h1
    subst h1
    obtain ⟨z, hz, hj⟩ := ih h2
    exact ⟨z, hz, .cons h3 hj⟩

theorem jpath_path {g : Graph} {mean : Nat → Option (Nat × RState)} {pass : Sym → Prop}
    (hc : ∀ n x i o w y, mean n = some x → JStep L spec pass x i o w y →
      ∃ a ∈ g.arcs n, a.inp = i ∧ a.out = o ∧ a.weight = w ∧ mean a.target = some y)
    {x y : Nat × RState} {l : List (Sym × Sym)} {w : Int} (h : JPath L spec pass x l w y) : ∀ {n}, mean n = some x →
    ∃ n', mean n' = some y ∧ Path g n l w n' := by
  induction h with
  | nil x => intro n hn; exact ⟨n, hn, .nil _⟩
  | cons hj _ ih =>
    intro n hn
    obtain ⟨a, h1, rfl, rfl, rfl, h5⟩ := hc _ _ _ _ _ _ hn hj
    obtain ⟨n', hn', hp⟩ := ih h5
    exact ⟨n', hn', .cons h1 hp⟩

/-- C33, except for what the violations below show.  The transducer that compose-intersect gives relates a string `u` to a string
`v` with weight `w` exactly if the lexicon relates `u` to some string `m` and all rules together relate `m` to `v`, and `w` is
the sum of the weights.  Epsilons are left out of the strings, an identity transition of a rule stands for the symbols that the
rule does not know, and a flag diacritic that no rule knows passes through.

The lexicon must not have transitions with identity as input.  The rules must be proper transducers with at most one identity
transition in each state; if there is more than one rule, they must be deterministic, and the flag diacritics on the output side
of the lexicon must be unknown to them. -/
theorem C33_partial (hn : Function.Injective num) (hL : WF L) (hid : ∀ s, ∀ a ∈ L.arcs s, a.inp ≠ identity) (hf : spec.Fine)
    (hflags : (∃ g, spec = .one g) ∨ ∀ s, ∀ a ∈ L.arcs s, Flags.isDiacritic a.out = true → ¬ spec.Knows a.out) {fuel : Nat}
    (hfuel : L.states.length * spec.states.length < fuel) :
    ∃ g, composeWithRules fuel num L (spec.build num) = .ok g ∧ WF g ∧
      ∀ u v w, Relates g u v w ↔ ∃ m w1 w2, Relates L u m w1 ∧ spec.Relates m v w2 ∧ w = w1 + w2 := by
  have hpass : ∀ s, ∀ a ∈ L.arcs s, spec.CodePasses a.out ↔ spec.Passes a.out := by
    intro s a ha
    rcases hflags with ⟨g, rfl⟩ | hflags
    · exact Iff.rfl
    · constructor
      · rintro ⟨h1, _⟩
        exact ⟨h1, hflags s a ha h1⟩
      · rintro ⟨h1, h2⟩
        refine ⟨h1, fun h => h2 ?_⟩
        match spec, h with
        | .one g, h => exact h
        | .both _ _, h => exact h.elim
  obtain ⟨g, e, hwf, mean, h0, hs, hc, hfin⟩ := compose_product hn hL hf hfuel
  have hs' : ∀ n, ∀ a ∈ g.arcs n, ∃ x y, mean n = some x ∧ mean a.target = some y ∧
      JStep L spec spec.Passes x a.inp a.out a.weight y := by
    intro n a ha
    obtain ⟨x, y, h1, h2, h3⟩ := hs n a ha
    exact ⟨x, y, h1, h2, h3.congr hpass⟩
  have hc' : ∀ n x i o w y, mean n = some x → JStep L spec spec.Passes x i o w y →
      ∃ a ∈ g.arcs n, a.inp = i ∧ a.out = o ∧ a.weight = w ∧ mean a.target = some y :=
    fun n x i o w y hx hj => hc n x i o w y hx (hj.congr fun s a ha => (hpass s a ha).symm)
  refine ⟨g, e, hwf, ?_⟩
  intro u v w
  constructor
  · rintro ⟨lab, ⟨n, wp, wf, hp, hwf, rfl⟩, rfl, rfl⟩
    obtain ⟨y, hy, hj⟩ := path_jpath hs' hp h0
    obtain ⟨l1, w1, w2, h1, h2, h3, rfl⟩ := jpath_sound hj
    obtain ⟨f1, f2, hf1, hf2, rfl⟩ := (hfin n y hy wf).mp hwf
    exact ⟨outputs l1, w1 + f1, w2 + f2, ⟨l1, ⟨_, w1, f1, h1, hf1, rfl⟩, h2, rfl⟩, ⟨_, w2, f2, h3, hf2, rfl⟩, by omega⟩
  · rintro ⟨m, w1, w2, ⟨l1, ⟨t, p1, f1, hp, hf1, rfl⟩, rfl, rfl⟩, ⟨q, p2, f2, hm, hf2, rfl⟩, rfl⟩
    obtain ⟨lab, h1, h2, h3⟩ := jpath_complete hid hp rfl hm
    obtain ⟨n, hn', hpath⟩ := jpath_path hc' h1 h0
    exact ⟨lab, ⟨n, _, f1 + f2, hpath, (hfin n _ hn' _).mpr ⟨f1, f2, hf1, hf2, rfl⟩, by omega⟩, h2, h3⟩

end Hfst.Compose
