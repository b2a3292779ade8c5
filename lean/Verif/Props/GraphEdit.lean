import Verif.Model.GraphEdit
import Verif.Lemmas.Graph

/-!
# C15-C18: edits of a transducer
-/
namespace Hfst.Basic
open Graph

/-! ## C15 -/

theorem WF.init : WF Graph.init := by
  refine ⟨by decide, ?_, ?_⟩
  · intro s a ha
    have hs := lt_of_mem_arcs ha
    simp [Graph.init] at hs
    subst hs
    simp [Graph.init, Graph.arcs] at ha
  · intro s w h
    simp [Graph.init, Graph.final, mapGet] at h

theorem AlphaOK.init : AlphaOK Graph.init := by
  refine ⟨?_, by simp [Graph.init], by simp [Graph.init], by simp [Graph.init]⟩
  intro s a ha
  have hs := lt_of_mem_arcs ha
  simp [Graph.init] at hs
  subst hs
  simp [Graph.init, Graph.arcs] at ha

/-- A change that keeps the number of states and the final states, and whose transitions lead where old ones led,
keeps a graph well formed. -/
theorem WF.of_same {g g' : Graph} (hg : WF g) (hl : g'.states.length = g.states.length)
    (ha : ∀ s, ∀ a ∈ g'.arcs s, ∃ b ∈ g.arcs s, b.target = a.target)
    (hf : ∀ s w, g'.final s = some w → ∃ w', g.final s = some w') : WF g' := by
  refine ⟨by rw [hl]; exact hg.nonempty, ?_, ?_⟩
  · intro s a h
    obtain ⟨b, hb, he⟩ := ha s a h
    rw [hl, ← he]; exact hg.targets s b hb
  · intro s w h
    obtain ⟨w', h'⟩ := hf s w h
    rw [hl]; exact hg.finals s w' h'

theorem WF.alpha {g : Graph} (hg : WF g) (al : List Sym) : WF { g with alphabet := al } :=
  ⟨hg.nonempty, hg.targets, hg.finals⟩

theorem WF.mapStates {g : Graph} (hg : WF g) (f : List Arc → List Arc) (al : List Sym)
    (hf : ∀ l, ∀ a ∈ f l, ∃ b ∈ l, b.target = a.target) :
    WF { g with states := g.states.map f, alphabet := al } := by
  have h0 : f [] = [] := by
    cases h : f [] with
    | nil => rfl
    | cons a l =>
      obtain ⟨b, hb, _⟩ := hf [] a (by rw [h]; simp)
      simp at hb
  refine WF.of_same hg (by simp) ?_ (fun s w h => ⟨w, h⟩)
  intro s a ha
  rw [arcs_map _ _ h0] at ha
  exact hf _ a ha

theorem WF.addStateN {g : Graph} (hg : WF g) (s : Nat) : WF (g.addStateN s) := by
  refine ⟨by simp; omega, ?_, ?_⟩
  · intro t a ha
    simp only [arcs_addStateN] at ha
    have := hg.targets t a ha
    simp; omega
  · intro t w h
    have := hg.finals t w h
    simp; omega

theorem WF.addState {g : Graph} (hg : WF g) : WF g.addState.1 := by
  refine ⟨by simp, ?_, ?_⟩
  · intro t a ha
    rw [arcs_addState] at ha
    have := hg.targets t a ha
    simp; omega
  · intro t w h
    have := hg.finals t w h
    simp; omega

theorem WF.addTransition {g : Graph} (hg : WF g) (s : Nat) (a : Arc) (b : Bool) : WF (g.addTransition s a b) := by
  refine ⟨by simp; omega, ?_, ?_⟩
  · intro t c hc
    rw [arcs_addTransition] at hc
    rw [length_addTransition]
    split at hc
    · rcases List.mem_append.mp hc with h | h
      · have := hg.targets s c h; omega
      · simp at h; subst h; omega
    · have := hg.targets t c hc; omega
  · intro t w h
    rw [final_addTransition] at h
    have := hg.finals t w h
    rw [length_addTransition]; omega

theorem WF.setFinal {g : Graph} (hg : WF g) (s : Nat) (w : Int) : WF (g.setFinal s w) := by
  refine ⟨by simp; omega, ?_, ?_⟩
  · intro t a ha
    rw [arcs_setFinal] at ha
    have := hg.targets t a ha
    simp; omega
  · intro t v h
    rw [final_setFinal] at h
    rw [length_setFinal]
    split at h
    · omega
    · have := hg.finals t v h; omega

theorem WF.foldAdd {g : Graph} (hg : WF g) (l : List (Nat × Arc)) :
    WF (l.foldl (fun g e => g.addTransition e.1 e.2) g) := by
  induction l generalizing g with
  | nil => exact hg
  | cons e l ih => exact ih (hg.addTransition e.1 e.2 true)

theorem WF.addSubstitution {g : Graph} (hg : WF g) (sub : SubstData) (h : Graph) : WF (g.addSubstitution sub h) := by
  unfold Graph.addSubstitution
  simp only []
  rw [copyFinals_eq, copyArcs_eq]
  exact ((hg.addState.addTransition _ _ _).foldAdd _).foldAdd _

theorem WF.foldSubst {β : Type} {g : Graph} (hg : WF g) (l : List (SubstData × β)) (f : β → Graph) :
    WF (l.foldl (fun g e => g.addSubstitution e.1 (f e.2)) g) := by
  induction l generalizing g with
  | nil => exact hg
  | cons e l ih => exact ih (hg.addSubstitution e.1 (f e.2))

theorem WF.disjunctPath {g : Graph} (hg : WF g) (spv : List (Sym × Sym)) (s : Nat) (hs : s < g.states.length) :
    WF (g.disjunctPath spv s).1 ∧ (g.disjunctPath spv s).2 < (g.disjunctPath spv s).1.states.length := by
  induction spv generalizing g s with
  | nil => exact ⟨hg, hs⟩
  | cons p rest ih =>
    unfold Graph.disjunctPath
    split
    · rename_i a ha
      refine ih hg a.target (hg.targets s a ?_)
      exact List.mem_of_find?_eq_some ha
    · simp only []
      refine ih (hg.addState.addTransition _ _ _) _ ?_
      simp
      omega

theorem removeLoop_mem (p : Sym × Sym) (l : List Arc) : ∀ a ∈ removeLoop p l, a ∈ l := by
  fun_induction removeLoop p l with
  | case1 => simp
  | case2 a h => simp
  | case3 a h => simp
  | case4 a b rest h ih =>
    intro c hc
    rcases List.mem_cons.mp hc with rfl | hc
    · simp
    · simp [ih c hc]
  | case5 a b rest h ih =>
    intro c hc
    rcases List.mem_cons.mp hc with rfl | hc
    · simp
    · have := ih c hc
      simp only [List.mem_cons] at this ⊢
      tauto

theorem WF.substituteGraph {g g' : Graph} (hg : WF g) {p : Sym × Sym} {h : Graph}
    (e : g.substituteGraph p h = .ok g') : WF g' := by
  unfold Graph.substituteGraph at e
  split at e
  · cases e
  · split at e
    · cases e; exact hg
    · split at e
      · cases e
      · simp only [Outcome.ok.injEq] at e
        subst e
        exact (hg.mapStates _ g.alphabet (by
          intro l a ha
          exact ⟨a, (List.mem_filter.mp ha).1, rfl⟩)).foldSubst _ (fun _ => h)

theorem WF.substituteGraphs {g g' : Graph} (hg : WF g) {m : List (Sym × Graph)}
    (e : g.substituteGraphs m = .ok g') : WF g' := by
  unfold Graph.substituteGraphs at e
  split at e
  · cases e
  · split at e
    · cases e; exact hg
    · split at e
      · cases e
      · simp only [Outcome.ok.injEq] at e
        subst e
        exact (hg.mapStates _ _ (by
          intro l a ha
          exact ⟨a, (List.mem_filter.mp ha).1, rfl⟩)).foldSubst _ id

theorem WF.insertFreely {g g' : Graph} (hg : WF g) {ps : List (Sym × Sym)} {w : Int}
    (e : g.insertFreely ps w = .ok g') : WF g' := by
  unfold Graph.insertFreely at e
  split at e
  · cases e
  · simp only [Outcome.ok.injEq] at e
    subst e
    refine ⟨by simpa [addSymbolPairs] using hg.nonempty, ?_, ?_⟩
    · intro s a ha
      have hs := lt_of_mem_arcs ha
      simp only [Graph.arcs, addSymbolPairs, List.getElem?_map, List.getElem?_zipIdx] at ha
      simp only [addSymbolPairs, List.length_map, List.length_zipIdx] at hs ⊢
      rw [List.getElem?_eq_getElem hs] at ha
      simp only [Option.map_some, Option.getD_some, List.mem_append, List.mem_map] at ha
      rcases ha with h | ⟨p, _, rfl⟩
      · exact hg.targets s a (by simpa [Graph.arcs, List.getElem?_eq_getElem hs] using h)
      · simpa using hs
    · intro s v h
      have := hg.finals s v h
      simpa [addSymbolPairs] using this

theorem WF.complete {g g' : Graph} (hg : WF g) (e : g.complete = .ok g') : WF g' := by
  unfold Graph.complete at e
  simp only [] at e
  split at e
  · cases e
  · simp only [Outcome.ok.injEq] at e
    subst e
    refine ⟨by simp, ?_, ?_⟩
    · intro s a ha
      have hs := lt_of_mem_arcs ha
      simp only [Graph.arcs, List.getElem?_map] at ha
      simp only [List.length_map] at hs ⊢
      rw [List.getElem?_eq_getElem hs] at ha
      simp only [Option.map_some, Option.getD_some, completeArcs, List.mem_append, List.mem_map] at ha
      rcases ha with h | ⟨x, _, rfl⟩
      · exact hg.addState.targets s a (by simpa [Graph.arcs, List.getElem?_eq_getElem hs] using h)
      · simp
    · intro s v h
      have := hg.addState.finals s v h
      simpa using this

theorem removeTransition_spec (g : Graph) (s : Nat) (a : Arc) (b : Bool) :
    (g.removeTransition s a b).states.length = g.states.length ∧
    (∀ t, (g.removeTransition s a b).arcs t = (g.arcs t).filter fun c =>
      !(t = s && c.inp = a.inp && c.out = a.out && c.target = a.target)) ∧
    (∀ t, (g.removeTransition s a b).final t = g.final t) := by
  have key : ∀ g' : Graph, g'.states = (g.states.modify s fun l =>
      l.filter fun b => !(b.inp = a.inp && b.out = a.out && b.target = a.target)) →
      s < g.states.length → g'.states.length = g.states.length ∧
      (∀ t, g'.arcs t = (g.arcs t).filter fun c =>
        !(t = s && c.inp = a.inp && c.out = a.out && c.target = a.target)) := by
    intro g' e hs
    refine ⟨by rw [e]; simp, ?_⟩
    intro t
    have := arcs_modify g s t (fun l =>
      l.filter fun b => !(b.inp = a.inp && b.out = a.out && b.target = a.target)) hs
    have e2 : g'.arcs t = ({ g with states := g.states.modify s fun l =>
      (l.filter fun b => !(b.inp = a.inp && b.out = a.out && b.target = a.target)) } : Graph).arcs t := by
      simp only [Graph.arcs, e]
    rw [e2, this]
    by_cases h : t = s
    · subst h; simp
    · simp only [h, if_false, decide_false, Bool.false_and, Bool.not_false]
      exact (List.filter_eq_self.mpr (by simp)).symm
  unfold Graph.removeTransition
  split
  · rename_i hs
    have hs : ¬ s < g.states.length := by simpa using hs
    refine ⟨rfl, ?_, fun _ => rfl⟩
    intro t
    by_cases h : t = s
    · subst h; simp [arcs_eq_nil g (Nat.le_of_not_lt hs)]
    · simp only [h, decide_false, Bool.false_and, Bool.not_false]
      exact (List.filter_eq_self.mpr (by simp)).symm
  · rename_i hs
    have hs : s < g.states.length := by simpa using hs
    simp only []
    split
    · split <;> split <;> exact ⟨(key _ rfl hs).1, (key _ rfl hs).2, fun _ => rfl⟩
    · exact ⟨(key _ rfl hs).1, (key _ rfl hs).2, fun _ => rfl⟩

/-- Every single edit that returns normally keeps a graph well formed. -/
theorem WF.apply {g g' : Graph} (hg : WF g) (e : Edit) (h : e.apply g = .ok g') : WF g' := by
  cases e with
  | addState => cases h; exact hg.addState
  | addStateN s => cases h; exact hg.addStateN s
  | addTransition s a b =>
    simp only [Edit.apply] at h
    split at h
    · cases h
    · cases h; exact hg.addTransition s a b
  | removeTransition s a b =>
    simp only [Edit.apply] at h
    split at h
    · cases h
    · cases h
      obtain ⟨h1, h2, h3⟩ := removeTransition_spec g s a b
      refine WF.of_same hg h1 ?_ (fun s w h => ⟨w, by rwa [h3] at h⟩)
      intro t c hc
      rw [h2] at hc
      exact ⟨c, (List.mem_filter.mp hc).1, rfl⟩
  | setFinal s w => cases h; exact hg.setFinal s w
  | removeFinal s =>
    cases h
    refine WF.of_same hg rfl (fun s a ha => ⟨a, ha, rfl⟩) ?_
    intro t w hw
    simp only [Graph.removeFinal, Graph.final, mapGet_erase] at hw
    split at hw
    · cases hw
    · exact ⟨w, hw⟩
  | sortArcs num =>
    cases h
    exact hg.mapStates _ g.alphabet (by
      intro l a ha
      exact ⟨a, by simpa using ha, rfl⟩)
  | addSymbol x => cases h; exact hg.alpha _
  | addSymbols x => cases h; exact hg.alpha _
  | removeSymbol x => cases h; exact hg.alpha _
  | removeSymbols x => cases h; exact hg.alpha _
  | pruneAlphabet f =>
    cases h
    unfold Graph.pruneAlphabet
    simp only []
    split
    · exact hg
    · exact hg.alpha _
  | pruneAfterSubstitution xs =>
    cases h
    unfold Graph.pruneAfterSubstitution
    split
    · exact hg
    · exact hg.alpha _
  | removeTransitions p =>
    cases h
    exact hg.mapStates _ _ (fun l a ha => ⟨a, removeLoop_mem p l a ha, rfl⟩)
  | substitute old new i o =>
    simp only [Edit.apply, Graph.substitute] at h
    split at h
    · cases h
    · split at h
      · cases h; exact hg
      · split at h
        · cases h; exact hg
        · cases h
          refine hg.mapStates _ _ ?_
          intro l a ha
          obtain ⟨b, hb, rfl⟩ := List.mem_map.mp ha
          exact ⟨b, hb, rfl⟩
  | substituteMap m =>
    simp only [Edit.apply, Graph.substituteMap] at h
    split at h
    · cases h
    · cases h
      refine hg.mapStates _ _ ?_
      intro l a ha
      obtain ⟨b, hb, rfl⟩ := List.mem_map.mp ha
      exact ⟨b, hb, rfl⟩
  | substitutePairMap m =>
    simp only [Edit.apply, Graph.substitutePairMap] at h
    split at h
    · cases h
    · cases h
      refine hg.mapStates _ _ ?_
      intro l a ha
      obtain ⟨b, hb, rfl⟩ := List.mem_map.mp ha
      refine ⟨b, hb, ?_⟩
      unfold substArcPairMap
      split <;> rfl
  | substitutePairSet old new =>
    simp only [Edit.apply, Graph.substitutePairSet] at h
    split at h
    · cases h
    · split at h
      · cases h
      · split at h
        · cases h
          exact hg.mapStates _ _ (fun l a ha => ⟨a, removeLoop_mem old l a ha, rfl⟩)
        · rename_i first rest _
          cases h
          have h1 := hg.mapStates (substPairSetArcs old first (first :: rest)) g.alphabet (by
            intro l a ha
            simp only [substPairSetArcs, List.mem_append, List.mem_map, List.mem_flatMap] at ha
            rcases ha with ⟨b, hb, rfl⟩ | ⟨b, hb, ha⟩
            · refine ⟨b, hb, ?_⟩
              split <;> rfl
            · refine ⟨b, hb, ?_⟩
              split at ha
              · obtain ⟨p, _, rfl⟩ := List.mem_map.mp ha
                rfl
              · simp at ha)
          unfold Graph.pruneAfterSubstitution
          split
          · split
            · exact h1.alpha _
            · exact h1
          · split
            · exact (h1.alpha _).alpha _
            · exact h1.alpha _
  | substituteFunc f =>
    simp only [Edit.apply, Graph.substituteFunc] at h
    split at h
    · cases h
    · split at h
      · cases h
      · cases h
        refine hg.mapStates _ _ ?_
        intro l a ha
        simp only [substFuncArcs, List.mem_append, List.mem_map, List.mem_flatMap] at ha
        rcases ha with ⟨b, hb, rfl⟩ | ⟨b, hb, ha⟩
        · refine ⟨b, hb, ?_⟩
          split <;> rfl
        · refine ⟨b, hb, ?_⟩
          split at ha
          · obtain ⟨p, _, rfl⟩ := List.mem_map.mp ha
            rfl
          · simp at ha
  | substituteGraph p k => exact hg.substituteGraph h
  | substituteGraphs m => exact hg.substituteGraphs h
  | insertFreely ps w => exact hg.insertFreely h
  | insertFreelyGraph k =>
    simp only [Edit.apply, Graph.insertFreelyGraph] at h
    split at h
    · rename_i g1 h1
      split at h
      · rename_i g2 h2
        cases h
        exact ((hg.insertFreely h1).substituteGraph h2).alpha _
      · rename_i hn
        exact absurd h (hn g')
    · rename_i hn
      exact absurd h (hn g')
  | disjunct spv w =>
    simp only [Edit.apply, Graph.disjunct] at h
    split at h
    · cases h
    · have h1 := hg.disjunctPath spv 0 hg.nonempty
      split at h
      · split at h
        · cases h; exact h1.1
        · cases h; exact h1.1.setFinal _ _
      · cases h; exact h1.1.setFinal _ _
  | complete => exact hg.complete h
  | flagPurge flag =>
    cases h
    refine hg.mapStates _ _ ?_
    intro l a ha
    obtain ⟨b, hb, rfl⟩ := List.mem_map.mp ha
    refine ⟨b, hb, ?_⟩
    split <;> rfl
  | insertTransducer s1 s2 k =>
    cases h
    unfold Graph.insertTransducer
    simp only []
    rw [copyFinals_eq, copyArcs_eq]
    exact ((hg.addState.foldAdd _).foldAdd _).addTransition _ _ _

theorem WF.run {g g' : Graph} (hg : WF g) (es : List Edit) (h : runEdits g es = .ok g') : WF g' := by
  induction es generalizing g with
  | nil => cases h; exact hg
  | cons e es ih =>
    simp only [runEdits] at h
    split at h
    · rename_i g1 h1
      exact ih (hg.apply e h1) h
    · rename_i hn
      exact absurd h (hn g')

/-- C15, states: after any sequence of edits of a new transducer that return normally, every transition leads to an
existing state, every final state exists, and the initial state exists. -/
theorem C15_states (es : List Edit) (g : Graph) (h : runEdits Graph.init es = .ok g) : WF g :=
  WF.init.run es h

/-- A special symbol: epsilon, unknown or identity. -/
def isSpecial (x : Sym) : Prop := x = epsilon ∨ x = unknown ∨ x = identity

/-- Edits for which the alphabet part of C15 is proved.  Left out are: adding a transition while asking not to add its
symbols, taking symbols out of the alphabet (documented as "use with care"), and calls that were found to take out
special or used symbols (see `C15_violated`, `C15_used_violated`). -/
def Edit.keepsAlphabet : Edit → Prop
  | .addTransition _ _ addSyms => addSyms = true
  | .removeTransition _ a removeSyms => removeSyms = true → ¬ isSpecial a.inp ∧ ¬ isSpecial a.out
  | .removeSymbol _ => False
  | .removeSymbols _ => False
  | .pruneAfterSubstitution xs => ∀ x ∈ xs, ¬ isSpecial x
  | .removeTransitions _ => False
  | .substitutePairSet old new => new ≠ [] ∧ ¬ isSpecial old.1 ∧ ¬ isSpecial old.2
  | .insertFreelyGraph _ => False
  | _ => True

/-- Same transitions, larger alphabet. -/
theorem AlphaOK.grow {g g' : Graph} (hg : AlphaOK g) (ha : ∀ x ∈ g.alphabet, x ∈ g'.alphabet)
    (h : ∀ s, ∀ a ∈ g'.arcs s, a ∈ g.arcs s ∨ (a.inp ∈ g'.alphabet ∧ a.out ∈ g'.alphabet)) : AlphaOK g' := by
  refine ⟨?_, ha _ hg.eps, ha _ hg.unk, ha _ hg.idn⟩
  intro s a has
  rcases h s a has with h | h
  · exact ⟨ha _ (hg.arcs s a h).1, ha _ (hg.arcs s a h).2⟩
  · exact h

/-- Symbols may leave the alphabet if they are not special and not used any more. -/
theorem AlphaOK.shrink {g g' : Graph} (hg : AlphaOK g)
    (ha : ∀ x ∈ g.alphabet, (isSpecial x ∨ x ∈ g'.symbolsUsed) → x ∈ g'.alphabet)
    (h : ∀ s, ∀ a ∈ g'.arcs s, a ∈ g.arcs s) : AlphaOK g' := by
  refine ⟨?_, ha _ hg.eps (.inl (.inl rfl)), ha _ hg.unk (.inl (.inr (.inl rfl))),
    ha _ hg.idn (.inl (.inr (.inr rfl)))⟩
  intro s a has
  exact ⟨ha _ (hg.arcs s a (h s a has)).1 (.inr ((mem_symbolsUsed _ _).mpr ⟨s, a, has, .inl rfl⟩)),
    ha _ (hg.arcs s a (h s a has)).2 (.inr ((mem_symbolsUsed _ _).mpr ⟨s, a, has, .inr rfl⟩))⟩

theorem AlphaOK.foldAdd {g : Graph} (hg : AlphaOK g) (l : List (Nat × Arc)) :
    AlphaOK (l.foldl (fun g e => g.addTransition e.1 e.2) g) := by
  refine hg.grow ?_ ?_
  · intro x hx
    rw [foldl_addTransition_alphabet]; exact .inl hx
  · intro s a ha
    rw [foldl_addTransition_arcs] at ha
    rcases List.mem_append.mp ha with h | h
    · exact .inl h
    · right
      obtain ⟨e, he, rfl⟩ := List.mem_map.mp h
      have he := (List.mem_filter.mp he).1
      rw [foldl_addTransition_alphabet, foldl_addTransition_alphabet]
      exact ⟨.inr ⟨e, he, .inl rfl⟩, .inr ⟨e, he, .inr rfl⟩⟩

theorem AlphaOK.addTransition {g : Graph} (hg : AlphaOK g) (s : Nat) (a : Arc) : AlphaOK (g.addTransition s a) :=
  hg.foldAdd [(s, a)]

theorem AlphaOK.addState {g : Graph} (hg : AlphaOK g) : AlphaOK g.addState.1 :=
  hg.grow (fun _ h => h) (fun s a h => by rw [arcs_addState] at h; exact .inl h)

theorem AlphaOK.addSubstitution {g : Graph} (hg : AlphaOK g) (sub : SubstData) (h : Graph) :
    AlphaOK (g.addSubstitution sub h) := by
  unfold Graph.addSubstitution
  simp only []
  rw [copyFinals_eq, copyArcs_eq]
  exact ((hg.addState.addTransition _ _).foldAdd _).foldAdd _

theorem AlphaOK.foldSubst {β : Type} {g : Graph} (hg : AlphaOK g) (l : List (SubstData × β)) (f : β → Graph) :
    AlphaOK (l.foldl (fun g e => g.addSubstitution e.1 (f e.2)) g) := by
  induction l generalizing g with
  | nil => exact hg
  | cons e l ih => exact ih (hg.addSubstitution e.1 (f e.2))

theorem AlphaOK.disjunctPath {g : Graph} (hg : AlphaOK g) (spv : List (Sym × Sym)) (s : Nat) :
    AlphaOK (g.disjunctPath spv s).1 := by
  induction spv generalizing g s with
  | nil => exact hg
  | cons p rest ih =>
    unfold Graph.disjunctPath
    split
    · exact ih hg _
    · exact ih (hg.addState.addTransition _ _) _

theorem AlphaOK.setFinal {g : Graph} (hg : AlphaOK g) (s : Nat) (w : Int) : AlphaOK (g.setFinal s w) :=
  hg.grow (fun _ h => h) (fun t a h => by rw [arcs_setFinal] at h; exact .inl h)

theorem special_not_flag (x flag : Sym) (h : purgeSymbol x flag = true) : ¬ isSpecial x := by
  unfold purgeSymbol at h
  split at h
  · cases h
  · rename_i hd
    rintro (rfl | rfl | rfl)
    · exact hd (by decide)
    · exact hd (by decide)
    · exact hd (by decide)

theorem mem_foldl_erase_unused (used : List Sym) (x : Sym) (xs al : List Sym) (hk : x ∈ xs → x ∈ used) (hx : x ∈ al) :
    x ∈ xs.foldl (fun al y => if y ∈ used then al else setErase al y) al := by
  induction xs generalizing al with
  | nil => exact hx
  | cons y ys ih =>
    rw [List.foldl_cons]
    refine ih _ (fun h => hk (by simp [h])) ?_
    split
    · exact hx
    · rename_i hy
      rw [mem_setErase]
      refine ⟨hx, ?_⟩
      rintro rfl
      exact hy (hk (by simp))

theorem prune_after {g : Graph} (hg : AlphaOK g) (xs : List Sym) (hk : ∀ x ∈ xs, ¬ isSpecial x) :
    AlphaOK (g.pruneAfterSubstitution xs) := by
  unfold Graph.pruneAfterSubstitution
  split
  · exact hg
  · refine hg.shrink ?_ (fun _ _ h => h)
    intro x hx hu
    have hu' : isSpecial x ∨ x ∈ g.symbolsUsed := hu
    exact mem_foldl_erase_unused _ x xs _ (fun h => hu'.resolve_left (hk x h)) hx

theorem AlphaOK.apply {g g' : Graph} (hg : AlphaOK g) (e : Edit) (hk : e.keepsAlphabet) (h : e.apply g = .ok g') :
    AlphaOK g' := by
  cases e with
  | addState => cases h; exact hg.addState
  | addStateN s =>
    cases h
    exact hg.grow (fun _ h => h) (fun t a h => by rw [arcs_addStateN] at h; exact .inl h)
  | addTransition s a b =>
    simp only [Edit.apply] at h
    split at h
    · cases h
    · cases h
      simp only [Edit.keepsAlphabet] at hk
      subst hk
      exact hg.addTransition s a
  | removeTransition s a b =>
    simp only [Edit.apply] at h
    split at h
    · cases h
    · cases h
      obtain ⟨_, h2, _⟩ := removeTransition_spec g s a b
      refine hg.shrink ?_ (fun t c hc => by rw [h2] at hc; exact (List.mem_filter.mp hc).1)
      intro x hx hu
      have aux : ∀ (y : Sym), ¬ isSpecial y → ∀ k : Graph, x ∈ k.symbolsUsed ∨ isSpecial x → x ∈ k.alphabet →
          y ∉ k.symbolsUsed → x ∈ (k.removeSymbol y).alphabet := by
        intro y hy k hk1 hk2 hk3
        simp only [Graph.removeSymbol, mem_setErase]
        refine ⟨hk2, ?_⟩
        rintro rfl
        rcases hk1 with h | h
        · exact hk3 h
        · exact hy h
      revert hu
      unfold Graph.removeTransition
      split
      · exact fun _ => hx
      · simp only []
        split
        · rename_i hb
          have hk := hk hb
          intro hu
          split
          · split
            · exact hx
            · rename_i hu1 hu2
              rw [if_pos hu1, if_neg hu2] at hu
              exact aux _ hk.1 _ hu.symm hx hu2
          · split
            · rename_i hu1 hu2
              rw [if_neg hu1, if_pos hu2] at hu
              exact aux _ hk.2 _ hu.symm hx hu1
            · rename_i hu1 hu2
              rw [if_neg hu1, if_neg hu2] at hu
              exact aux _ hk.2 _ hu.symm (aux _ hk.1 _ hu.symm hx hu2) hu1
        · exact fun _ => hx
  | setFinal s w => cases h; exact hg.setFinal s w
  | removeFinal s => cases h; exact ⟨hg.arcs, hg.eps, hg.unk, hg.idn⟩
  | sortArcs num =>
    cases h
    refine hg.grow (fun _ h => h) (fun s a h => .inl ?_)
    unfold Graph.sortArcs at h
    rw [arcs_map g (fun l => l.mergeSort (arcLe num)) (by simp) s g.alphabet] at h
    simpa using h
  | addSymbol x =>
    cases h
    exact hg.grow (fun y h => by simp [Graph.addSymbol, mem_setInsert, h]) (fun _ _ h => .inl h)
  | addSymbols x =>
    cases h
    exact hg.grow (fun y h => by simp [Graph.addSymbols, mem_foldl_setInsert, h]) (fun _ _ h => .inl h)
  | removeSymbol x => exact hk.elim
  | removeSymbols x => exact hk.elim
  | pruneAlphabet f =>
    cases h
    unfold Graph.pruneAlphabet
    simp only []
    split
    · exact hg
    · refine hg.shrink ?_ (fun _ _ h => h)
      intro x hx hu
      simp only [mem_foldl_setErase, List.mem_filter, decide_eq_true_eq, not_and, not_not]
      refine ⟨hx, fun _ => ?_⟩
      rcases hu with (rfl | rfl | rfl) | hu
      · simp
      · simp
      · simp
      · exact List.mem_append.mpr (.inr hu)
  | pruneAfterSubstitution xs =>
    cases h
    exact prune_after hg xs hk
  | removeTransitions p => exact hk.elim
  | substitute old new i o =>
    simp only [Edit.apply, Graph.substitute] at h
    split at h
    · cases h
    · split at h
      · cases h; exact hg
      · split at h
        · cases h; exact hg
        · rename_i hne hin
          cases h
          have mem : ∀ x, x ∈ g.alphabet → (x = old → ¬(i = true ∧ o = true) ∨ isSpecial old) →
              x ∈ setInsert (if i && o && (old ≠ epsilon && old ≠ unknown && old ≠ identity)
                then setErase g.alphabet old else g.alphabet) new := by
            intro x hx hcond
            rw [mem_setInsert]
            right
            split
            · rename_i hc
              rw [mem_setErase]
              refine ⟨hx, fun e => ?_⟩
              rcases hcond e with h | h
              · simp at hc; exact h hc.1
              · simp at hc
                rcases h with h | h | h <;> simp [h] at hc
            · exact hx
          refine ⟨?_, mem _ hg.eps (fun e => .inr (.inl e.symm)), mem _ hg.unk (fun e => .inr (.inr (.inl e.symm))),
            mem _ hg.idn (fun e => .inr (.inr (.inr e.symm)))⟩
          intro s a ha
          rw [arcs_map g _ (by simp)] at ha
          obtain ⟨b, hb, rfl⟩ := List.mem_map.mp ha
          have hb' := hg.arcs s b hb
          have hnew : new ∈ setInsert (if i && o && (old ≠ epsilon && old ≠ unknown && old ≠ identity)
                then setErase g.alphabet old else g.alphabet) new := by rw [mem_setInsert]; exact .inl rfl
          unfold substArc
          simp only []
          constructor
          · by_cases hc : (i && decide (b.inp = old)) = true
            · rw [if_pos hc]; exact hnew
            · rw [if_neg hc]
              refine mem _ hb'.1 (fun e => .inl ?_)
              rintro ⟨rfl, rfl⟩
              exact hc (by simp [e])
          · by_cases hc : (o && decide (b.out = old)) = true
            · rw [if_pos hc]; exact hnew
            · rw [if_neg hc]
              refine mem _ hb'.2 (fun e => .inl ?_)
              rintro ⟨rfl, rfl⟩
              exact hc (by simp [e])
  | substituteMap m =>
    simp only [Edit.apply, Graph.substituteMap] at h
    split at h
    · cases h
    · cases h
      have mem : ∀ x, x ∈ (g.states.flatMap fun l => l.flatMap (substMapAdded m)) ∨ x ∈ g.alphabet →
          x ∈ (g.states.flatMap fun l => l.flatMap (substMapAdded m)).foldl setInsert g.alphabet :=
        fun x h => mem_foldl_setInsert.mpr h
      refine ⟨?_, mem _ (.inr hg.eps), mem _ (.inr hg.unk), mem _ (.inr hg.idn)⟩
      intro s a ha
      rw [arcs_map g _ (by simp)] at ha
      obtain ⟨b, hb, rfl⟩ := List.mem_map.mp ha
      have hb' := hg.arcs s b hb
      have hs := lt_of_mem_arcs hb
      have hl : ∀ x, x ∈ substMapAdded m b → x ∈ (g.states.flatMap fun l => l.flatMap (substMapAdded m)) := by
        intro x hx
        refine List.mem_flatMap.mpr ⟨g.states[s], List.getElem_mem hs, List.mem_flatMap.mpr ⟨b, ?_, hx⟩⟩
        simpa [Graph.arcs, List.getElem?_eq_getElem hs] using hb
      unfold substArcMap
      simp only []
      constructor
      · cases hm : mapGet m b.inp with
        | none => exact mem _ (.inr hb'.1)
        | some y => exact mem _ (.inl (hl _ (by simp [substMapAdded, hm])))
      · cases hm : mapGet m b.out with
        | none => exact mem _ (.inr hb'.2)
        | some y => exact mem _ (.inl (hl _ (by simp [substMapAdded, hm])))
  | substitutePairMap m =>
    simp only [Edit.apply, Graph.substitutePairMap] at h
    split at h
    · cases h
    · cases h
      refine ⟨?_, mem_foldl_setInsert.mpr (.inr hg.eps), mem_foldl_setInsert.mpr (.inr hg.unk),
        mem_foldl_setInsert.mpr (.inr hg.idn)⟩
      intro s a ha
      rw [arcs_map g _ (by simp)] at ha
      obtain ⟨b, hb, rfl⟩ := List.mem_map.mp ha
      have hb' := hg.arcs s b hb
      have hs := lt_of_mem_arcs hb
      have hbs : b ∈ g.states[s] := by simpa [Graph.arcs, List.getElem?_eq_getElem hs] using hb
      unfold substArcPairMap
      cases hm : mapGet m b.label with
      | none => exact ⟨mem_foldl_setInsert.mpr (.inr hb'.1), mem_foldl_setInsert.mpr (.inr hb'.2)⟩
      | some p =>
        constructor <;>
        · refine mem_foldl_setInsert.mpr (.inl ?_)
          refine List.mem_flatMap.mpr ⟨g.states[s], List.getElem_mem hs, List.mem_flatMap.mpr ⟨b, hbs, ?_⟩⟩
          simp [hm]
  | substitutePairSet old new =>
    obtain ⟨hne, ho1, ho2⟩ := hk
    simp only [Edit.apply, Graph.substitutePairSet] at h
    split at h
    · cases h
    · split at h
      · cases h
      · split at h
        · exact absurd rfl hne
        · rename_i first rest _
          cases h
          refine prune_after ?_ _ ?_
          · have harcs : ∀ s, ∀ a ∈ ({ g with states := g.states.map (substPairSetArcs old first (first :: rest)) } : Graph).arcs s,
                a ∈ g.arcs s ∨ ((g.states.any fun l => l.any fun a => a.label = old) = true ∧
                  ∃ p ∈ first :: rest, a.inp = p.1 ∧ a.out = p.2) := by
              intro s a ha
              rw [arcs_map g _ (by simp [substPairSetArcs]) s g.alphabet] at ha
              have hany : ∀ b ∈ g.arcs s, b.label = old →
                  (g.states.any fun l => l.any fun a => a.label = old) = true := by
                intro b hb he
                have hs := lt_of_mem_arcs hb
                refine List.any_eq_true.mpr ⟨g.states[s], List.getElem_mem hs, List.any_eq_true.mpr ⟨b, ?_, by simp [he]⟩⟩
                simpa [Graph.arcs, List.getElem?_eq_getElem hs] using hb
              simp only [substPairSetArcs, List.mem_append, List.mem_map, List.mem_flatMap] at ha
              rcases ha with ⟨b, hb, rfl⟩ | ⟨b, hb, ha⟩
              · split
                · rename_i he
                  exact .inr ⟨hany b hb he, first, by simp, rfl, rfl⟩
                · exact .inl hb
              · split at ha
                · rename_i he
                  obtain ⟨p, hp, rfl⟩ := List.mem_map.mp ha
                  exact .inr ⟨hany b hb he, p, hp, rfl, rfl⟩
                · simp at ha
            split
            · refine hg.grow ?_ ?_
              · intro x hx
                simp only [Graph.addSymbolPairs, mem_foldl_pairs]
                exact .inr hx
              · intro s a ha
                rcases harcs s a ha with h | ⟨_, p, hp, e1, e2⟩
                · exact .inl h
                · right
                  simp only [Graph.addSymbolPairs, mem_foldl_pairs]
                  exact ⟨.inl ⟨p, hp, .inl e1⟩, .inl ⟨p, hp, .inr e2⟩⟩
            · rename_i hn
              refine hg.grow (fun _ h => h) ?_
              intro s a ha
              rcases harcs s a ha with h | ⟨h, _⟩
              · exact .inl h
              · exact absurd h hn
          · intro x hx
            rw [mem_setInsert] at hx
            rcases hx with rfl | hx
            · exact ho2
            · simp at hx; subst hx; exact ho1
  | substituteFunc f =>
    simp only [Edit.apply, Graph.substituteFunc] at h
    split at h
    · cases h
    · split at h
      · cases h
      · rename_i hne _
        cases h
        refine ⟨?_, mem_foldl_setInsert.mpr (.inr hg.eps), mem_foldl_setInsert.mpr (.inr hg.unk),
          mem_foldl_setInsert.mpr (.inr hg.idn)⟩
        intro s a ha
        rw [arcs_map g _ (by simp [substFuncArcs])] at ha
        have key : ∀ b ∈ g.arcs s, ∀ ps, f b.label = some ps → ∀ p ∈ ps,
            p.1 ∈ (g.states.flatten.flatMap fun a => match f a.label with
              | some ps => ps.flatMap fun p => [p.1, p.2]
              | none => []) ∧
            p.2 ∈ (g.states.flatten.flatMap fun a => match f a.label with
              | some ps => ps.flatMap fun p => [p.1, p.2]
              | none => []) := by
          intro b hb ps hps p hp
          have hb' := (mem_flatten_states g b).mpr ⟨s, hb⟩
          constructor <;>
          · refine List.mem_flatMap.mpr ⟨b, hb', ?_⟩
            rw [hps]
            exact List.mem_flatMap.mpr ⟨p, hp, by simp⟩
        simp only [substFuncArcs, List.mem_append, List.mem_map, List.mem_flatMap] at ha
        rcases ha with ⟨b, hb, rfl⟩ | ⟨b, hb, ha⟩
        · split
          · rename_i p ps hps
            have := key b hb _ hps p (by simp)
            exact ⟨mem_foldl_setInsert.mpr (.inl this.1), mem_foldl_setInsert.mpr (.inl this.2)⟩
          · exact ⟨mem_foldl_setInsert.mpr (.inr (hg.arcs s b hb).1),
              mem_foldl_setInsert.mpr (.inr (hg.arcs s b hb).2)⟩
        · split at ha
          · rename_i ps hps
            obtain ⟨p, hp, rfl⟩ := List.mem_map.mp ha
            have := key b hb _ hps p hp
            exact ⟨mem_foldl_setInsert.mpr (.inl this.1), mem_foldl_setInsert.mpr (.inl this.2)⟩
          · simp at ha
  | substituteGraph p k =>
    simp only [Edit.apply, Graph.substituteGraph] at h
    split at h
    · cases h
    · split at h
      · cases h; exact hg
      · split at h
        · cases h
        · cases h
          refine AlphaOK.foldSubst ?_ _ (fun _ => k)
          refine hg.grow (fun _ h => h) ?_
          intro s a ha
          rw [arcs_map g _ (by simp) s g.alphabet] at ha
          exact .inl (List.mem_filter.mp ha).1
  | substituteGraphs m =>
    simp only [Edit.apply, Graph.substituteGraphs] at h
    split at h
    · cases h
    · split at h
      · cases h; exact hg
      · split at h
        · cases h
        · rename_i hside
          cases h
          refine AlphaOK.foldSubst ?_ _ id
          refine hg.shrink ?_ ?_
          · intro x hx hu
            simp only [List.mem_filter, Bool.or_eq_true, decide_eq_true_eq]
            refine ⟨hx, ?_⟩
            rcases hu with (h | h | h) | hu
            · simp [h]
            · simp [h]
            · simp [h]
            · left; left; left
              intro hp
              obtain ⟨b, hb, rfl⟩ := List.mem_map.mp hp
              have hbm := (List.mem_filter.mp hb).2
              rw [mem_symbolsUsed] at hu
              obtain ⟨s, a, ha, hxa⟩ := hu
              rw [arcs_map g _ (by simp)] at ha
              obtain ⟨ha1, ha2⟩ := List.mem_filter.mp ha
              have hs := lt_of_mem_arcs ha1
              rcases hxa with e | e
              · rw [e] at hbm
                simp [Option.isSome_iff_ne_none] at hbm ha2
                exact hbm ha2
              · apply hside
                refine List.any_eq_true.mpr ⟨g.states[s], List.getElem_mem hs, List.any_eq_true.mpr ⟨a, ?_, ?_⟩⟩
                · simpa [Graph.arcs, List.getElem?_eq_getElem hs] using ha1
                · rw [e] at hbm
                  simp only [hbm, Bool.or_true, Bool.true_and, decide_eq_true_eq]
                  intro he
                  rw [he, ] at ha2
                  simp [Option.isSome_iff_ne_none] at hbm ha2
                  exact hbm ha2
          · intro s a ha
            rw [arcs_map g _ (by simp)] at ha
            exact (List.mem_filter.mp ha).1
  | insertFreely ps w =>
    simp only [Edit.apply, Graph.insertFreely] at h
    split at h
    · cases h
    · cases h
      refine hg.grow ?_ ?_
      · intro x hx
        simp only [Graph.addSymbolPairs, mem_foldl_pairs]
        exact .inr hx
      · intro s a ha
        have hs := lt_of_mem_arcs ha
        simp only [Graph.arcs, addSymbolPairs, List.getElem?_map, List.getElem?_zipIdx] at ha
        simp only [addSymbolPairs, List.length_map, List.length_zipIdx] at hs
        rw [List.getElem?_eq_getElem hs] at ha
        simp only [Option.map_some, Option.getD_some, List.mem_append, List.mem_map] at ha
        rcases ha with h | ⟨p, hp, rfl⟩
        · exact .inl (by simpa [Graph.arcs, List.getElem?_eq_getElem hs] using h)
        · right
          simp only [Graph.addSymbolPairs, mem_foldl_pairs]
          exact ⟨.inl ⟨p, hp, .inl rfl⟩, .inl ⟨p, hp, .inr rfl⟩⟩
  | insertFreelyGraph k => exact hk.elim
  | disjunct spv w =>
    simp only [Edit.apply, Graph.disjunct] at h
    split at h
    · cases h
    · have h1 := hg.disjunctPath spv 0
      split at h
      · split at h
        · cases h; exact h1
        · cases h; exact h1.setFinal _ _
      · cases h; exact h1.setFinal _ _
  | complete =>
    simp only [Edit.apply, Graph.complete] at h
    split at h
    · cases h
    · cases h
      refine hg.addState.grow (fun _ h => h) ?_
      intro s a ha
      have hs := lt_of_mem_arcs ha
      simp only [Graph.arcs, List.getElem?_map] at ha
      simp only [List.length_map] at hs
      rw [List.getElem?_eq_getElem hs] at ha
      simp only [Option.map_some, Option.getD_some, completeArcs, List.mem_append, List.mem_map] at ha
      rcases ha with h | ⟨x, hx, rfl⟩
      · exact .inl (by simpa [Graph.arcs, List.getElem?_eq_getElem hs] using h)
      · exact .inr ⟨(List.mem_filter.mp hx).1, (List.mem_filter.mp hx).1⟩
  | flagPurge flag =>
    cases h
    have mem : ∀ x, x ∈ g.alphabet → purgeSymbol x flag = false → x ∈ (g.flagPurge flag).alphabet := by
      intro x hx hp
      simp only [Graph.flagPurge, Graph.removeSymbols, mem_foldl_setErase, List.mem_filter, not_and]
      exact ⟨hx, fun _ => by simp [hp]⟩
    have sp : ∀ x, isSpecial x → purgeSymbol x flag = false := by
      intro x hx
      cases hp : purgeSymbol x flag with
      | false => rfl
      | true => exact absurd hx (special_not_flag x flag hp)
    refine ⟨?_, mem _ hg.eps (sp _ (.inl rfl)), mem _ hg.unk (sp _ (.inr (.inl rfl))),
      mem _ hg.idn (sp _ (.inr (.inr rfl)))⟩
    intro s a ha
    rw [show (g.flagPurge flag).arcs s = (g.arcs s).map fun a =>
        if purgeSymbol a.inp flag || purgeSymbol a.out flag then { a with inp := epsilon, out := epsilon } else a
      from arcs_map g (fun l => l.map fun a : Arc =>
        if purgeSymbol a.inp flag || purgeSymbol a.out flag then { a with inp := epsilon, out := epsilon } else a)
        (by simp) s _] at ha
    obtain ⟨b, hb, rfl⟩ := List.mem_map.mp ha
    split
    · exact ⟨mem _ hg.eps (sp _ (.inl rfl)), mem _ hg.eps (sp _ (.inl rfl))⟩
    · rename_i hc
      simp at hc
      exact ⟨mem _ (hg.arcs s b hb).1 hc.1, mem _ (hg.arcs s b hb).2 hc.2⟩
  | insertTransducer s1 s2 k =>
    cases h
    unfold Graph.insertTransducer
    simp only []
    rw [copyFinals_eq, copyArcs_eq]
    exact ((hg.addState.foldAdd _).foldAdd _).addTransition _ _

/-- C15, alphabet (partial): sequences of edits as in `Edit.keepsAlphabet` leave every used symbol and the three
special symbols in the alphabet. -/
theorem C15_alphabet_partial (es : List Edit) (g : Graph) (hk : ∀ e ∈ es, e.keepsAlphabet)
    (h : runEdits Graph.init es = .ok g) : AlphaOK g := by
  suffices ∀ (g0 g : Graph), AlphaOK g0 → runEdits g0 es = .ok g → AlphaOK g from this _ _ AlphaOK.init h
  clear h g
  induction es with
  | nil => intro g0 g h0 h; cases h; exact h0
  | cons e es ih =>
    intro g0 g h0 h
    simp only [runEdits] at h
    split at h
    · rename_i g1 h1
      exact ih (fun e' he' => hk e' (by simp [he'])) g1 g (h0.apply e (hk e (by simp)) h1) h
    · rename_i hn
      exact absurd h (hn g)

end Hfst.Basic
