import Verif.Props.ComposeLang

/-!
# Compose-intersect: cases that meet the conditions, and cases that show why they are needed
-/
namespace Hfst.Compose
open Hfst.Basic Hfst.Basic.Graph

/-! ## Checking the conditions for a given transducer -/

/-- The conditions on a rule, as a check. -/
def ruleCheck (g : Graph) : Bool :=
  decide (0 < g.states.length) && decide (epsilon ∈ g.alphabet ∧ unknown ∈ g.alphabet ∧ identity ∈ g.alphabet) &&
    g.states.all (fun l => l.all (fun a => decide (a.target < g.states.length) &&
      decide (a.inp ∈ g.alphabet ∧ a.out ∈ g.alphabet) && decide (a.inp = identity ↔ a.out = identity)) &&
      decide ((l.filter fun a => decide (a.inp = identity)).length ≤ 1)) &&
    g.finals.all fun e => decide (e.1 < g.states.length)

theorem arcs_state {g : Graph} {s : Nat} : g.arcs s = [] ∨ g.arcs s ∈ g.states := by
  unfold Graph.arcs
  cases h : g.states[s]? with
  | none => exact .inl rfl
  | some l => exact .inr (List.mem_of_getElem? h)

theorem ruleCheck_ok {g : Graph} (h : ruleCheck g = true) : RuleOK g := by
  unfold ruleCheck at h
  simp only [Bool.and_eq_true, decide_eq_true_eq, List.all_eq_true] at h
  obtain ⟨⟨⟨h1, h2⟩, h3⟩, h4⟩ := h
  have hm : ∀ s, ∀ a ∈ g.arcs s, g.arcs s ∈ g.states := by
    intro s a ha
    rcases arcs_state (g := g) (s := s) with h | h
    · rw [h] at ha; cases ha
    · exact h
  refine ⟨⟨h1, fun s a ha => ((h3 _ (hm s a ha)).1 a ha).1.1, ?_⟩, ⟨fun s a ha => ((h3 _ (hm s a ha)).1 a ha).1.2, h2.1, h2.2.1, h2.2.2⟩,
    fun s a ha => ((h3 _ (hm s a ha)).1 a ha).2, ?_⟩
  · intro s w hs
    exact h4 _ (mapGet_mem hs)
  · intro s
    rcases arcs_state (g := g) (s := s) with h | h
    · rw [h]; simp
    · exact (h3 _ h).2

theorem det_of_check {g : Graph} (h : ∀ l ∈ g.states, l.Pairwise fun a b => ¬ (a.inp = b.inp ∧ a.out = b.out)) :
    (RuleSpec.one g).Deterministic := by
  intro s
  rcases arcs_state (g := g) (s := s) with h' | h'
  · rw [h']; exact List.Pairwise.nil
  · exact h _ h'

/-! ## Two rules and a lexicon -/

/-- `a` becomes `b` or stays, the other symbols stay, `c` costs 1, and an `e` may be inserted anywhere. -/
def ruleA : Graph :=
  { states := [[⟨0, "a".toList, "b".toList, 0⟩, ⟨0, "a".toList, "a".toList, 0⟩, ⟨0, "c".toList, "c".toList, 1⟩,
      ⟨0, identity, identity, 0⟩, ⟨0, epsilon, "e".toList, 0⟩]], finals := [(0, 0)],
    alphabet := [epsilon, unknown, identity, "a".toList, "b".toList, "c".toList, "e".toList] }

/-- `a` only becomes `b`, the other symbols stay, and an `e` may be inserted at the end. -/
def ruleB : Graph :=
  { states := [[⟨0, "a".toList, "b".toList, 2⟩, ⟨0, identity, identity, 0⟩, ⟨1, epsilon, "e".toList, 0⟩], []], finals := [(0, 0), (1, 3)],
    alphabet := [epsilon, unknown, identity, "a".toList, "b".toList, "e".toList] }

/-- The two rules together. -/
def twoRules : RuleSpec := .both (.one ruleA) (.one ruleB)

/-- The lexicon `x:a (flag) c`. -/
def lexicon : Graph :=
  { states := [[⟨1, "x".toList, "a".toList, 0⟩], [⟨2, "@U.F.V@".toList, "@U.F.V@".toList, 0⟩], [⟨3, "c".toList, "c".toList, 0⟩], []],
    finals := [(3, 0)], alphabet := [epsilon, unknown, identity, "x".toList, "a".toList, "c".toList, "@U.F.V@".toList] }

theorem twoRules_fine : twoRules.Fine := by
  refine ⟨ruleCheck_ok (by decide +kernel), ruleCheck_ok (by decide +kernel), det_of_check ?_, det_of_check ?_⟩ <;>
    decide +kernel

/-- A case that meets the conditions of C32: after three requests, one of them for a state that does not exist. -/
example : ∃ meaning : Nat → Option RState, meaning 0 = some twoRules.start ∧
    ∀ n s, meaning n = some s → ∀ x, ∃ set r',
      (after symCode [(0, "a".toList), (7, "a".toList), (0, epsilon)] (twoRules.build symCode)).get symCode n x = .ok (set, r') := by
  obtain ⟨m, h1, _, _, h4⟩ := C32 symCode_injective twoRules twoRules_fine [(0, "a".toList), (7, "a".toList), (0, epsilon)]
  refine ⟨m, h1, fun n s hs x => ?_⟩
  obtain ⟨set, r', h, _⟩ := (h4 n s hs).2 x
  exact ⟨set, r', h⟩

/-- The rules together have a step that both have, with the sum of the weights, and no other step for `a`. -/
example : twoRules.Step twoRules.start "a".toList "b".toList 2 twoRules.start ∧
    ¬ ∃ w q, twoRules.Step twoRules.start "a".toList "a".toList w q := by
  refine ⟨⟨0, 2, .inl ⟨by decide, by decide⟩, .inl ⟨by decide, by decide⟩, rfl⟩, ?_⟩
  rintro ⟨w, q, h⟩
  match q with
  | .one _ => exact h
  | .both s t =>
    obtain ⟨w1, w2, _, h2, _⟩ := h
    match t with
    | .both _ _ => exact h2
    | .one t =>
      rcases h2 with ⟨_, h2⟩ | ⟨h2, _⟩
      · have : ∀ t w, (⟨t, "a".toList, "a".toList, w⟩ : Arc) ∉ ruleB.arcs 0 := by
          intro t w h
          have : ∀ a ∈ ruleB.arcs 0, ¬ (a.inp = "a".toList ∧ a.out = "a".toList) := by decide
          exact this _ h ⟨rfl, rfl⟩
        exact this _ _ h2
      · exact h2 (by decide)

theorem lexicon_wf : WF lexicon :=
  (ruleCheck_ok (g := lexicon) (by decide +kernel)).wf

theorem lexicon_arcs {P : Arc → Prop} (h : ∀ l ∈ lexicon.states, ∀ a ∈ l, P a) : ∀ s, ∀ a ∈ lexicon.arcs s, P a := by
  intro s a ha
  rcases arcs_state (g := lexicon) (s := s) with h' | h'
  · rw [h'] at ha; cases ha
  · exact h _ h' a ha

/-- A case that meets the conditions of C33: the result relates `x (flag) c` to `b (flag) c` with weight 3, and to `b (flag) c e`
with weight 6. -/
example : ∃ g, composeWithRules 9 symCode lexicon (twoRules.build symCode) = .ok g ∧
    Relates g ["x".toList, "@U.F.V@".toList, "c".toList] ["b".toList, "@U.F.V@".toList, "c".toList] 3 ∧
    Relates g ["x".toList, "@U.F.V@".toList, "c".toList] ["b".toList, "@U.F.V@".toList, "c".toList, "e".toList] 6 := by
  have hflag : ∀ s, ∀ a ∈ lexicon.arcs s, Flags.isDiacritic a.out = true → ¬ twoRules.Knows a.out := by
    apply lexicon_arcs
    have : ∀ l ∈ lexicon.states, ∀ a ∈ l, Flags.isDiacritic a.out = true →
        a.out ∉ ruleA.alphabet ∧ a.out ∉ ruleB.alphabet := by decide +kernel
    intro l hl a ha hd h
    obtain ⟨h1, h2⟩ := this l hl a ha hd
    exact h.elim h1 h2
  obtain ⟨g, e, _, h⟩ := C33_partial symCode_injective lexicon_wf (lexicon_arcs (by decide +kernel)) twoRules_fine
    (.inr hflag) (fuel := 9) (by decide)
  have hlex : Relates lexicon ["x".toList, "@U.F.V@".toList, "c".toList] ["a".toList, "@U.F.V@".toList, "c".toList] 0 :=
    ⟨_, ⟨3, 0, 0, .cons (a := ⟨1, "x".toList, "a".toList, 0⟩) (by decide)
      (.cons (a := ⟨2, "@U.F.V@".toList, "@U.F.V@".toList, 0⟩) (by decide)
        (.cons (a := ⟨3, "c".toList, "c".toList, 0⟩) (by decide) (.nil 3))), by decide, rfl⟩, by decide, by decide⟩
  have hpass : twoRules.Passes "@U.F.V@".toList := by
    refine ⟨by decide +kernel, ?_⟩
    rintro (h | h)
    · revert h; show ¬ _ ∈ ruleA.alphabet; decide +kernel
    · revert h; show ¬ _ ∈ ruleB.alphabet; decide +kernel
  have hno : ∀ x : Sym, Flags.isDiacritic x = false → ¬ twoRules.Passes x := by
    rintro x hx ⟨h, _⟩
    rw [hx] at h; cases h
  have ha : twoRules.Step twoRules.start "a".toList "b".toList 2 twoRules.start :=
    ⟨0, 2, .inl ⟨by decide, by decide⟩, .inl ⟨by decide, by decide⟩, rfl⟩
  have hc : twoRules.Step twoRules.start "c".toList "c".toList 1 twoRules.start :=
    ⟨1, 0, .inl ⟨by decide, by decide⟩, .inr ⟨by decide, rfl, ⟨0, identity, identity, 0⟩, by decide, rfl, rfl, rfl⟩, rfl⟩
  refine ⟨g, e, ?_, ?_⟩
  · refine (h _ _ _).mpr ⟨_, 0, 3, hlex, ⟨twoRules.start, 3, 0, ?_, ⟨0, 0, rfl, rfl, rfl⟩, rfl⟩, rfl⟩
    exact .read (by decide) (hno _ (by decide +kernel)) ha (.pass (by decide) hpass
      (.read (by decide) (hno _ (by decide +kernel)) hc (.nil _)))
  · refine (h _ _ _).mpr ⟨_, 0, 6, hlex, ⟨.both (.one 0) (.one 1), 3, 3, ?_, ⟨0, 3, rfl, rfl, rfl⟩, rfl⟩, rfl⟩
    have he : twoRules.Step twoRules.start epsilon "e".toList 0 (.both (.one 0) (.one 1)) :=
      ⟨0, 0, .inl ⟨by decide, by decide⟩, .inl ⟨by decide, by decide⟩, rfl⟩
    exact .read (by decide) (hno _ (by decide +kernel)) ha (.pass (by decide) hpass
      (.read (by decide) (hno _ (by decide +kernel)) hc (.eps he (.nil _))))

/-! ## Why the conditions are needed -/

/-- A rule that knows the flag diacritic and does not allow it. -/
def noFlag : Graph :=
  { states := [[⟨0, identity, identity, 0⟩]], finals := [(0, 0)], alphabet := [epsilon, unknown, identity, "@U.F.V@".toList] }

/-- A lexicon with the flag diacritic. -/
def flagLexicon : Graph :=
  { states := [[⟨1, "@U.F.V@".toList, "@U.F.V@".toList, 0⟩], []], finals := [(1, 0)],
    alphabet := [epsilon, unknown, identity, "@U.F.V@".toList] }

theorem noFlag_step {x o : Sym} {w : Int} {q : Nat} (hx : x ∈ noFlag.alphabet) : ¬ RuleStep noFlag 0 x o w q := by
  rintro (⟨h1, h2⟩ | ⟨h1, _⟩)
  · have : ∀ a ∈ noFlag.arcs 0, a.inp = identity := by decide
    exact h1 (this _ h2)
  · exact h1 hx

/-- The rule does not let the flag diacritic through. -/
theorem noFlag_refuses {v : List Sym} {w : Int} : ¬ (RuleSpec.one noFlag).Relates ["@U.F.V@".toList] v w := by
  rintro ⟨q, w1, w2, h, _⟩
  have step : ∀ {x o w q}, x ∈ noFlag.alphabet → ¬ (RuleSpec.one noFlag).Step (.one 0) x o w q := by
    intro x o w q hx h
    match q with
    | .both _ _ => exact h
    | .one q => exact noFlag_step hx h
  cases h with
  | eps h => exact step (by decide) h
  | read _ _ h => exact step (by decide +kernel) h
  | pass _ h => exact h.2 (by show _ ∈ noFlag.alphabet; decide +kernel)

/-- C33 fails for two rules that know a flag diacritic: it passes through although both rules know it and do not allow it.  With
one of the rules alone it does not. -/
theorem C33_flags_violated :
    (∃ g, composeWithRules 3 symCode flagLexicon ((RuleSpec.one noFlag).build symCode) = .ok g ∧
      ∀ v w, ¬ Relates g ["@U.F.V@".toList] v w) ∧
    ∃ g, composeWithRules 3 symCode flagLexicon ((RuleSpec.both (.one noFlag) (.one noFlag)).build symCode) = .ok g ∧
      Relates g ["@U.F.V@".toList] ["@U.F.V@".toList] 0 := by
  have hok : RuleOK noFlag := ruleCheck_ok (by decide +kernel)
  have hdet : (RuleSpec.one noFlag).Deterministic := det_of_check (by decide +kernel)
  have hL : WF flagLexicon := (ruleCheck_ok (g := flagLexicon) (by decide +kernel)).wf
  have harcs : ∀ {P : Arc → Prop}, (∀ l ∈ flagLexicon.states, ∀ a ∈ l, P a) → ∀ s, ∀ a ∈ flagLexicon.arcs s, P a := by
    intro P h s a ha
    rcases arcs_state (g := flagLexicon) (s := s) with h' | h'
    · rw [h'] at ha; cases ha
    · exact h _ h' a ha
  constructor
  · obtain ⟨g, e, _, h⟩ := C33_partial (spec := .one noFlag) symCode_injective hL (harcs (by decide +kernel)) hok
      (.inl ⟨_, rfl⟩) (fuel := 3) (by decide)
    refine ⟨g, e, ?_⟩
    intro v w hr
    obtain ⟨m, w1, w2, ⟨l, ⟨q, p, f, hp, hf, _⟩, hu, hm⟩, hrel, _⟩ := (h _ _ _).mp hr
    -- the only path of the lexicon
    cases hp with
    | nil => cases hu
    | @cons _ _ a l _ ha hp =>
      have hfst : ∀ a ∈ flagLexicon.arcs 0, a = ⟨1, "@U.F.V@".toList, "@U.F.V@".toList, 0⟩ := by decide +kernel
      rw [hfst a ha] at hp hm
      cases hp with
      | nil =>
        have : m = ["@U.F.V@".toList] := by rw [← hm]; decide +kernel
        rw [this] at hrel
        exact noFlag_refuses hrel
      | cons ha' _ => cases ha'
  · obtain ⟨g, e, _, mean, h0, _, hc, hfin⟩ := compose_product (spec := .both (.one noFlag) (.one noFlag)) symCode_injective hL
      ⟨hok, hok, hdet, hdet⟩ (fuel := 3) (by decide)
    refine ⟨g, e, ?_⟩
    obtain ⟨a, ha, hi, ho, hw, ht⟩ := hc 0 _ _ _ _ _ h0 (.skip (a := ⟨1, "@U.F.V@".toList, "@U.F.V@".toList, 0⟩)
      (by decide) (by decide +kernel) (.inr ⟨by decide +kernel, fun h => h⟩))
    have hf := (hfin _ _ ht 0).mpr ⟨0, 0, by decide, ⟨0, 0, rfl, rfl, rfl⟩, rfl⟩
    refine ⟨[(a.inp, a.out)], ⟨a.target, _, 0, .single ha, hf, by rw [hw]; rfl⟩, ?_, ?_⟩
    · rw [hi, ho]; decide +kernel
    · rw [hi, ho]; decide +kernel

/-- The constructor on a transducer whose transitions are sorted already. -/
theorem build_sorted {num : Sym → Nat} {ik : Bool} {g : Graph} (h : ∀ l ∈ g.states, l.Pairwise fun a b => arcLe num a b = true) :
    Fst.build num ik g = { symbols := g.alphabet
                           maps := g.states.map fun l => l.foldl (addToMap num ik) []
                           finals := (List.range g.states.length).map g.final
                           identities := g.states.flatMap identitiesOf } := by
  have e : g.sortArcs num = g := by
    unfold Graph.sortArcs
    have : (g.states.map fun l => l.mergeSort (arcLe num)) = g.states := by
      conv_rhs => rw [← List.map_id g.states]
      exact List.map_congr_left fun l hl => List.mergeSort_of_pairwise (h l hl)
    rw [this]
  unfold Fst.build
  rw [e]

/-- A rule with two transitions `a:a` from its first state, where the first leads to a final state. -/
def firstFinal : Graph :=
  { states := [[⟨1, "a".toList, "a".toList, 0⟩, ⟨2, "a".toList, "a".toList, 0⟩], [], []], finals := [(1, 0)],
    alphabet := [epsilon, unknown, identity, "a".toList] }

/-- The same with the second leading to a final state. -/
def secondFinal : Graph := { firstFinal with finals := [(2, 0)] }

/-- A lexicon with `a`. -/
def aLexicon : Graph :=
  { states := [[⟨1, "a".toList, "a".toList, 0⟩], []], finals := [(1, 0)], alphabet := [epsilon, unknown, identity, "a".toList] }

/-- C32 and C33 fail for rules that are not deterministic: both rules accept `a:a`, but a state of the pair for the final states
is not made, and the result has no final state. -/
theorem C33_nondeterministic_violated :
    (RuleSpec.both (.one firstFinal) (.one secondFinal)).Relates ["a".toList] ["a".toList] 0 ∧
    ∃ g, composeWithRules 20 symCode aLexicon ((RuleSpec.both (.one firstFinal) (.one secondFinal)).build symCode) = .ok g ∧
      ∀ u v w, ¬ Relates g u v w := by
  constructor
  · refine ⟨.both (.one 1) (.one 2), 0, 0, ?_, ⟨0, 0, rfl, rfl, rfl⟩, rfl⟩
    have hs : (RuleSpec.both (.one firstFinal) (.one secondFinal)).Step (.both (.one 0) (.one 0)) "a".toList "a".toList 0
        (.both (.one 1) (.one 2)) := ⟨0, 0, .inl ⟨by decide, by decide⟩, .inl ⟨by decide, by decide⟩, rfl⟩
    exact .read (by decide) (by rintro ⟨h, _⟩; revert h; decide +kernel) hs (.nil _)
  · have : ∃ g, composeWithRules 20 symCode aLexicon ((RuleSpec.both (.one firstFinal) (.one secondFinal)).build symCode) = .ok g ∧
        g.finals = [] := by
      refine ⟨{ states := [[⟨1, "a".toList, "a".toList, 0⟩, ⟨2, "a".toList, "a".toList, 0⟩], [], []], finals := [],
                alphabet := ["a".toList, epsilon, unknown, identity] }, ?_, rfl⟩
      unfold composeWithRules RuleSpec.build RuleSpec.build Rules.ofGraph
      rw [build_sorted (g := aLexicon) (by decide +kernel), build_sorted (g := firstFinal) (by decide +kernel),
        build_sorted (g := secondFinal) (by decide +kernel)]
      decide +kernel
    obtain ⟨g, e, hf⟩ := this
    refine ⟨g, e, ?_⟩
    rintro u v w ⟨l, ⟨q, p, f, _, h, _⟩, _⟩
    unfold Graph.final at h
    rw [hf] at h
    cases h

/-- A rule that accepts one symbol that it does not know, with two identity transitions from the first state. -/
def oneSymbol : Graph :=
  { states := [[⟨1, identity, identity, 0⟩, ⟨1, identity, identity, 5⟩], []], finals := [(1, 0)],
    alphabet := [epsilon, unknown, identity] }

/-- A lexicon with `aa`. -/
def aaLexicon : Graph :=
  { states := [[⟨1, "a".toList, "a".toList, 0⟩], [⟨2, "a".toList, "a".toList, 0⟩], []], finals := [(2, 0)],
    alphabet := [epsilon, unknown, identity, "a".toList] }

/-- C33 fails for a rule with two identity transitions from one state: the rule accepts only strings of one symbol, but the result
accepts `aa`, because the second identity transition of the first state is taken for that of the second state. -/
theorem C33_identities_violated :
    (∀ x y v w, x ≠ epsilon → y ≠ epsilon → Flags.isDiacritic x = false → Flags.isDiacritic y = false →
      ¬ (RuleSpec.one oneSymbol).Relates [x, y] v w) ∧
    ∃ g, composeWithRules 20 symCode aaLexicon ((RuleSpec.one oneSymbol).build symCode) = .ok g ∧
      Relates g ["a".toList, "a".toList] ["a".toList, "a".toList] 5 := by
  constructor
  · rintro x y v w hx hy hx' hy' ⟨q, w1, w2, h, _⟩
    have hpass : ∀ {x : Sym}, Flags.isDiacritic x = false → ¬ (RuleSpec.one oneSymbol).Passes x := by
      rintro x h ⟨h', _⟩
      rw [h] at h'; cases h'
    have harc : ∀ a ∈ oneSymbol.arcs 0, a.inp = identity ∧ a.target = 1 := by decide
    have step0 : ∀ {x o w q}, (RuleSpec.one oneSymbol).Step (.one 0) x o w q → x ≠ epsilon ∧ q = .one 1 := by
      intro x o w q h
      match q with
      | .both _ _ => exact h.elim
      | .one q =>
        rcases h with ⟨h1, h2⟩ | ⟨h1, _, b, hb, _, _, ht⟩
        · exact absurd (harc _ h2).1 h1
        · refine ⟨fun e => h1 (e ▸ by decide), ?_⟩
          rw [← ht, (harc _ hb).2]
    have step1 : ∀ {x o w q}, ¬ (RuleSpec.one oneSymbol).Step (.one 1) x o w q := by
      intro x o w q h
      match q with
      | .both _ _ => exact h
      | .one q =>
        rcases h with ⟨_, h2⟩ | ⟨_, _, b, hb, _⟩
        · cases h2
        · cases hb
    cases h with
    | eps h => exact (step0 h).1 rfl
    | read _ _ h h' =>
      rw [(step0 h).2] at h'
      cases h' with
      | eps h => exact step1 h
      | read _ _ h => exact step1 h
      | pass _ h => exact hpass hy' h
    | pass _ h => exact hpass hx' h
  · refine ⟨{ states := [[⟨1, "a".toList, "a".toList, 0⟩], [⟨2, "a".toList, "a".toList, 5⟩], []], finals := [(2, 0)],
              alphabet := ["a".toList, epsilon, unknown, identity] }, ?_, ?_⟩
    · unfold composeWithRules RuleSpec.build Rules.ofGraph
      rw [build_sorted (g := aaLexicon) (by decide +kernel), build_sorted (g := oneSymbol) (by decide +kernel)]
      decide +kernel
    · exact ⟨_, ⟨2, 5, 0, .cons (a := ⟨1, "a".toList, "a".toList, 0⟩) (by decide)
        (.cons (a := ⟨2, "a".toList, "a".toList, 5⟩) (by decide) (.nil 2)), by decide, rfl⟩, by decide, by decide⟩

end Hfst.Compose
