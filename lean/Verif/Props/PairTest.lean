import Verif.Spec.PairTest

/-!
# C95: hfst-pair-test
-/
namespace Hfst.PairTest
open Hfst.StdString Hfst.Basic

/-! ## One transition -/

theorem targetLoop_exact (known : List Sym) (p : Sym × Sym) (as : List Arc) (idt : Option Nat)
    (h : ∃ a ∈ as, a.inp = p.1 ∧ a.out = p.2) :
    ∃ a ∈ as, (a.inp = p.1 ∧ a.out = p.2) ∧ targetLoop known p as idt = some a.target := by
  induction as generalizing idt with
  | nil => obtain ⟨a, ha, _⟩ := h; cases ha
  | cons b as ih =>
    unfold targetLoop
    by_cases hb : b.inp = p.1 ∧ b.out = p.2
    · exact ⟨b, List.mem_cons_self, hb, by rw [if_pos hb]⟩
    · rw [if_neg hb]
      have h' : ∃ a ∈ as, a.inp = p.1 ∧ a.out = p.2 := by
        obtain ⟨a, ha, h1⟩ := h
        rcases List.mem_cons.1 ha with rfl | ha
        · exact absurd h1 hb
        · exact ⟨a, ha, h1⟩
      obtain ⟨a, ha, h1, h2⟩ := ih _ h'
      exact ⟨a, List.mem_cons_of_mem _ ha, h1, h2⟩

/-- The last identity transition. -/
def lastIdentity : List Arc → Option Nat → Option Nat
  | [], idt => idt
  | a :: as, idt => lastIdentity as (if a.inp = identity ∧ a.out = identity then some a.target else idt)

theorem targetLoop_other (known : List Sym) (p : Sym × Sym) (as : List Arc) (idt : Option Nat)
    (h : ¬ ∃ a ∈ as, a.inp = p.1 ∧ a.out = p.2) :
    targetLoop known p as idt = if p.1 = p.2 ∧ p.1 ∉ known then lastIdentity as idt else none := by
  induction as generalizing idt with
  | nil => rfl
  | cons b as ih =>
    unfold targetLoop lastIdentity
    rw [if_neg fun hb => h ⟨b, List.mem_cons_self, hb⟩]
    exact ih _ fun ⟨a, ha, h1⟩ => h ⟨a, List.mem_cons_of_mem _ ha, h1⟩

theorem lastIdentity_some (as : List Arc) (idt : Option Nat) (q : Nat) (h : lastIdentity as idt = some q) :
    idt = some q ∨ ∃ a ∈ as, a.inp = identity ∧ a.out = identity ∧ a.target = q := by
  induction as generalizing idt with
  | nil => exact Or.inl h
  | cons b as ih =>
    unfold lastIdentity at h
    rcases ih _ h with h1 | ⟨a, ha, h1⟩
    · by_cases hb : b.inp = identity ∧ b.out = identity
      · rw [if_pos hb] at h1
        exact Or.inr ⟨b, List.mem_cons_self, hb.1, hb.2, Option.some.inj h1⟩
      · rw [if_neg hb] at h1
        exact Or.inl h1
    · exact Or.inr ⟨a, List.mem_cons_of_mem _ ha, h1⟩

theorem lastIdentity_isSome (as : List Arc) (idt : Option Nat)
    (h : idt.isSome ∨ ∃ a ∈ as, a.inp = identity ∧ a.out = identity) : (lastIdentity as idt).isSome := by
  induction as generalizing idt with
  | nil =>
    rcases h with h | ⟨a, ha, _⟩
    · exact h
    · cases ha
  | cons b as ih =>
    unfold lastIdentity
    apply ih
    by_cases hb : b.inp = identity ∧ b.out = identity
    · rw [if_pos hb]; exact Or.inl rfl
    · rw [if_neg hb]
      rcases h with h | ⟨a, ha, h1⟩
      · exact Or.inl h
      · rcases List.mem_cons.1 ha with rfl | ha
        · exact absurd h1 hb
        · exact Or.inr ⟨a, ha, h1⟩

/-- What is needed of a rule for one pair. -/
def Fits (known : List Sym) (g : Graph) (p : Sym × Sym) : Prop := p.1 = p.2 → (p.1 ∈ known ↔ p.1 ∈ g.alphabet)

theorem getTarget_iff (known : List Sym) (g : Graph) (hd : Deterministic g) (ha : AlphaOK g) (s : Nat) (p : Sym × Sym)
    (hp : Fits known g p) (q : Nat) :
    getTarget known g s p = some q ↔ ∃ a ∈ g.arcs s, Takes g a p ∧ a.target = q := by
  unfold getTarget
  by_cases he : ∃ a ∈ g.arcs s, a.inp = p.1 ∧ a.out = p.2
  · obtain ⟨a, ha1, ha2, ha3⟩ := targetLoop_exact known p (g.arcs s) none he
    rw [ha3]
    constructor
    · intro h; exact ⟨a, ha1, Or.inl ha2, Option.some.inj h⟩
    · rintro ⟨b, hb1, hb2 | hb2, hb3⟩
      · rw [hd s a ha1 b hb1 (ha2.1.trans hb2.1.symm) (ha2.2.trans hb2.2.symm), hb3]
      · exact absurd (ha2.1 ▸ (ha.arcs s a ha1).1) hb2.2.2.2
  · rw [targetLoop_other known p (g.arcs s) none he]
    constructor
    · intro h
      by_cases hc : p.1 = p.2 ∧ p.1 ∉ known
      · rw [if_pos hc] at h
        rcases lastIdentity_some _ _ _ h with h1 | ⟨a, ha1, h1, h2, h3⟩
        · cases h1
        · exact ⟨a, ha1, Or.inr ⟨h1, h2, hc.1, fun hm => hc.2 ((hp hc.1).2 hm)⟩, h3⟩
      · rw [if_neg hc] at h; cases h
    · rintro ⟨b, hb1, hb2 | hb2, hb3⟩
      · exact absurd ⟨b, hb1, hb2⟩ he
      · rw [if_pos ⟨hb2.2.2.1, fun hm => hb2.2.2.2 ((hp hb2.2.2.1).1 hm)⟩]
        have h1 := lastIdentity_isSome (g.arcs s) none (Or.inr ⟨b, hb1, hb2.1, hb2.2.1⟩)
        obtain ⟨q', hq⟩ := Option.isSome_iff_exists.1 h1
        rw [hq]
        rcases lastIdentity_some _ _ _ hq with h2 | ⟨a, ha1, h2, h3, h4⟩
        · cases h2
        · rw [← h4, hd s a ha1 b hb1 (h2.trans hb2.1.symm) (h3.trans hb2.2.1.symm), hb3]

/-! ## One rule -/

/-- Whether the loop of `test` ends in a final state. -/
def acc (known : List Sym) (g : Graph) (s : Nat) (p : PairString) : Bool :=
  match walk known g s p with
  | none => false
  | some q => isFinalState g q

theorem acc_iff (known : List Sym) (g : Graph) (hd : Deterministic g) (ha : AlphaOK g) (p : PairString)
    (hp : ∀ x ∈ p, Fits known g x) (s : Nat) : acc known g s p = true ↔ Run g s p := by
  induction p generalizing s with
  | nil =>
    unfold acc walk isFinalState
    simp only
    constructor
    · intro h
      obtain ⟨w, hw⟩ := Option.isSome_iff_exists.1 h
      exact .stop hw
    · rintro ⟨h⟩
      rename_i h
      rw [h]; rfl
  | cons x ps ih =>
    have hg := getTarget_iff known g hd ha s x (hp x List.mem_cons_self)
    have ih' := ih fun y hy => hp y (List.mem_cons_of_mem _ hy)
    have e : acc known g s (x :: ps) = match getTarget known g s x with
        | none => false
        | some s' => acc known g s' ps := by
      unfold acc
      rw [walk]
      cases getTarget known g s x <;> rfl
    rw [e]
    constructor
    · intro h
      cases hgt : getTarget known g s x with
      | none => rw [hgt] at h; cases h
      | some q =>
        rw [hgt] at h
        obtain ⟨a, h1, h2, h3⟩ := (hg q).1 hgt
        exact .step h1 h2 (h3 ▸ (ih' q).1 h)
    · intro h
      cases h with
      | step h1 h2 h3 =>
        rw [(hg _).2 ⟨_, h1, h2, rfl⟩]
        exact (ih' _).2 h3

theorem testRule_eq (known : List Sym) (g : Graph) (positive : Bool) (p : PairString) :
    testRule known g positive p = if acc known g 0 p = positive then 0 else 1 := by
  unfold testRule acc
  cases walk known g 0 p with
  | none => cases positive <;> rfl
  | some s => rcases hf : isFinalState g s with _ | _ <;> cases positive <;> simp [hf]

/-! ## The grammar -/

theorem foldl_positive (known : List Sym) (p : PairString) (grammar : List Rule) (c : Codes) (hc : c.pos = 0 ∨ c.pos = 1) :
    (grammar.foldl (testStep known true p) c).pos =
      if c.pos = 0 ∧ (∀ r ∈ grammar, acc known r.graph 0 p = true) then 0 else 1 := by
  induction grammar generalizing c with
  | nil => rcases hc with h | h <;> simp [h]
  | cons r grammar ih =>
    rw [List.foldl_cons]
    have hs : (testStep known true p c r).pos = if c.pos = 0 ∧ acc known r.graph 0 p = true then 0 else 1 := by
      unfold testStep
      simp only [testRule_eq, Bool.true_and, decide_eq_true_eq]
      rcases hc with h | h
      · simp [h]
      · simp [h]
    rw [ih _ (by rw [hs]; split <;> simp), hs]
    rcases hc with h | h
    · by_cases ha : acc known r.graph 0 p = true
      · simp [h, ha]
      · simp [h, ha]
    · simp [h]

theorem foldl_negative (known : List Sym) (p : PairString) (grammar : List Rule) (c : Codes) (hc : c.neg = 0 ∨ c.neg = 1) :
    (grammar.foldl (testStep known false p) c).neg =
      if c.neg = 1 ∧ (∀ r ∈ grammar, acc known r.graph 0 p = true) then 1 else 0 := by
  induction grammar generalizing c with
  | nil => rcases hc with h | h <;> simp [h]
  | cons r grammar ih =>
    rw [List.foldl_cons]
    have hs : (testStep known false p c r).neg = if c.neg = 1 ∧ acc known r.graph 0 p = true then 1 else 0 := by
      unfold testStep
      simp only [testRule_eq, Bool.not_false, Bool.true_and, decide_eq_true_eq]
      rcases hc with h | h
      · simp [h]
      · by_cases ha : acc known r.graph 0 p = true <;> simp [h, ha]
    rw [ih _ (by rw [hs]; split <;> simp), hs]
    rcases hc with h | h
    · simp [h]
    · by_cases ha : acc known r.graph 0 p = true
      · simp [h, ha]
      · simp [h, ha]

theorem testGrammar_eq (known : List Sym) (grammar : List Rule) (positive : Bool) (p : PairString) :
    (testGrammar known grammar positive p).1 =
      if (∀ r ∈ grammar, acc known r.graph 0 p = true) ↔ positive = true then 0 else 1 := by
  unfold testGrammar
  cases positive with
  | true => simp only [if_true]; rw [foldl_positive _ _ _ _ (Or.inl rfl)]; simp
  | false =>
    simp only [Bool.false_eq_true, if_false]
    rw [foldl_negative _ _ _ _ (Or.inr rfl)]
    by_cases h : ∀ r ∈ grammar, acc known r.graph 0 p = true
    · rw [if_pos ⟨rfl, h⟩, if_neg (by intro hc; exact absurd (hc.1 h) (by simp))]
    · rw [if_neg (by simp only [h, and_false, not_false_eq_true]), if_pos (by simp only [h])]

theorem foldl_names (known : List Sym) (p : PairString) (grammar : List Rule) (c : Codes) :
    (grammar.foldl (testStep known true p) c).names =
      c.names ++ (grammar.filter fun r => !acc known r.graph 0 p).map Rule.name := by
  induction grammar generalizing c with
  | nil => simp
  | cons r grammar ih =>
    rw [List.foldl_cons, ih]
    unfold testStep
    simp only [testRule_eq, Bool.true_and, decide_eq_true_eq]
    cases h : acc known r.graph 0 p <;> simp [h]

theorem known_iff (grammar : List Rule) (x : Sym) :
    x ∈ knownSymbols grammar ↔ ∃ f ∈ grammar.head?, ∃ s, ∃ a ∈ f.graph.arcs s, a.inp = x ∨ a.out = x := by
  unfold knownSymbols
  cases grammar with
  | nil => simp
  | cons r rs =>
    simp only [List.head?_cons, Option.mem_def, Option.some.injEq, exists_eq_left']
    unfold Graph.symbolsUsed Graph.arcs
    constructor
    · intro h
      obtain ⟨l, hl, h⟩ := List.mem_flatMap.1 h
      obtain ⟨a, hal, h⟩ := List.mem_flatMap.1 h
      obtain ⟨s, hs⟩ := List.mem_iff_getElem?.1 hl
      refine ⟨s, a, by rw [hs]; exact hal, ?_⟩
      simp only [List.mem_cons, List.not_mem_nil, or_false] at h
      rcases h with h | h
      · exact Or.inl h.symm
      · exact Or.inr h.symm
    · rintro ⟨s, a, hal, h⟩
      cases hs : r.graph.states[s]? with
      | none => rw [hs] at hal; cases hal
      | some l =>
        rw [hs] at hal
        refine List.mem_flatMap.2 ⟨l, List.mem_of_getElem? hs, List.mem_flatMap.2 ⟨a, hal, ?_⟩⟩
        simp only [List.mem_cons, List.not_mem_nil, or_false]
        rcases h with h | h
        · exact Or.inl h.symm
        · exact Or.inr h.symm

theorem fits (grammar : List Rule) (h : Regular grammar) (p : PairString) (hp : Plain p) (r : Rule) (hr : r ∈ grammar) :
    ∀ x ∈ withBoundaries p, Fits (knownSymbols grammar) r.graph x := by
  intro x hx he
  have hb : x ≠ boundary := by
    intro hb
    rw [hb] at he
    exact absurd he (by decide +kernel)
  have hxp : x ∈ p := by
    unfold withBoundaries at hx
    simp only [List.cons_append, List.mem_cons, List.mem_append, List.not_mem_nil, or_false] at hx
    rcases hx with hx | hx | hx
    · exact absurd hx hb
    · exact hx
    · exact absurd hx hb
  obtain ⟨y, z⟩ := x
  simp only at he
  subst he
  have h1 : y ≠ epsilon := fun e => hp.1 (e ▸ hxp)
  have h2 : y ≠ unknown := fun e => hp.2.1 (e ▸ hxp)
  have h3 : y ≠ identity := fun e => hp.2.2 (e ▸ hxp)
  rw [known_iff]
  cases grammar with
  | nil => cases hr
  | cons f rs =>
    rw [h.same r hr f rfl y h1 h2 h3]
    simp

theorem accepts_iff (grammar : List Rule) (h : Regular grammar) (p : PairString) (hp : Plain p) (r : Rule) (hr : r ∈ grammar) :
    acc (knownSymbols grammar) r.graph 0 (withBoundaries p) = true ↔ RuleAccepts r.graph p :=
  acc_iff _ _ (h.deterministic r hr) (h.alphabet r hr) _ (fits grammar h p hp r hr) 0

theorem grammar_iff (grammar : List Rule) (h : Regular grammar) (p : PairString) (hp : Plain p) :
    (∀ r ∈ grammar, acc (knownSymbols grammar) r.graph 0 (withBoundaries p) = true) ↔ GrammarAccepts grammar p :=
  ⟨fun h1 r hr => (accepts_iff grammar h p hp r hr).1 (h1 r hr), fun h1 r hr => (accepts_iff grammar h p hp r hr).2 (h1 r hr)⟩

theorem code_iff (grammar : List Rule) (h : Regular grammar) (p : PairString) (hp : Plain p) (positive : Bool) :
    (testGrammar (knownSymbols grammar) grammar positive (withBoundaries p)).1 = 0 ↔
      (GrammarAccepts grammar p ↔ positive = true) := by
  rw [testGrammar_eq, ← grammar_iff grammar h p hp]
  split
  · rename_i h1; simp only [true_iff]; exact h1
  · rename_i h1
    constructor
    · intro h2; cases h2
    · intro h2; exact absurd h2 h1

/-- **C95, the rules named (partial)**: in a positive test exactly the rules that reject the pair string are named, in the order of the
file.  Missing: grammars that are not as `hfst-twolc` writes them, see `C95_symbols_violated`. -/
theorem C95_names_partial (grammar : List Rule) (h : Regular grammar) (p : PairString) (hp : Plain p) :
    ∃ rejecting : List Rule, List.Sublist rejecting grammar ∧ (∀ r ∈ grammar, (r ∈ rejecting ↔ ¬ RuleAccepts r.graph p)) ∧
      (testGrammar (knownSymbols grammar) grammar true (withBoundaries p)).2 = rejecting.map Rule.name := by
  refine ⟨grammar.filter fun r => !acc (knownSymbols grammar) r.graph 0 (withBoundaries p), List.filter_sublist, ?_, ?_⟩
  · intro r hr
    rw [← accepts_iff grammar h p hp r hr, List.mem_filter]
    simp [hr]
  · unfold testGrammar
    simp only
    rw [foldl_names]
    simp

/-! ## The lines -/

theorem noTest_iff (l : Str) : isEmptyOrComment l = true ↔ NoTest l := by
  induction l with
  | nil => simp only [isEmptyOrComment, true_iff]; exact ⟨[], [], rfl, by simp, Or.inl rfl⟩
  | cons c cs ih =>
    unfold isEmptyOrComment
    by_cases hc : c = ' ' ∨ c = '\t'
    · rw [if_pos hc, ih]
      constructor
      · rintro ⟨b, r, h1, h2, h3⟩
        refine ⟨c :: b, r, by rw [h1]; rfl, ?_, h3⟩
        intro x hx
        rcases List.mem_cons.1 hx with rfl | hx
        · exact hc
        · exact h2 x hx
      · rintro ⟨b, r, h1, h2, h3⟩
        cases b with
        | nil =>
          simp only [List.nil_append] at h1
          rcases h3 with h3 | ⟨r', h3⟩
          · rw [h3] at h1; cases h1
          · rw [h3] at h1
            simp only [List.cons.injEq] at h1
            rw [h1.1] at hc
            rcases hc with hc | hc <;> cases hc
        | cons x b =>
          simp only [List.cons_append, List.cons.injEq] at h1
          exact ⟨b, r, h1.2, fun y hy => h2 y (List.mem_cons_of_mem _ hy), h3⟩
    · rw [if_neg hc]
      simp only [decide_eq_true_eq]
      constructor
      · intro h; subst h; exact ⟨[], '!' :: cs, rfl, by simp, Or.inr ⟨cs, rfl⟩⟩
      · rintro ⟨b, r, h1, h2, h3⟩
        cases b with
        | nil =>
          simp only [List.nil_append] at h1
          rcases h3 with h3 | ⟨r', h3⟩
          · rw [h3] at h1; cases h1
          · rw [h3] at h1
            simp only [List.cons.injEq] at h1
            exact h1.1
        | cons x b =>
          simp only [List.cons_append, List.cons.injEq] at h1
          exact absurd (h1.1 ▸ h2 x List.mem_cons_self) hc

theorem linesLoop_iff (tokenize : Str → Option PairString) (grammar : List Rule) (positive : Bool) (lines : List Str) (code : Nat) :
    linesLoop tokenize grammar positive code lines = 0 ↔ code = 0 ∧ ∀ l ∈ lines, NoTest (cutLine l) ∨
      ∃ p, tokenize (cutLine l) = some p ∧
        (testGrammar (knownSymbols grammar) grammar positive (withBoundaries p)).1 = 0 := by
  induction lines generalizing code with
  | nil => simp [linesLoop]
  | cons l ls ih =>
    unfold linesLoop
    by_cases hn : isEmptyOrComment (cutLine l) = true
    · rw [if_pos hn, ih]
      have := (noTest_iff _).1 hn
      simp [this]
    · rw [if_neg hn]
      have hn' : ¬ NoTest (cutLine l) := fun h => hn ((noTest_iff _).2 h)
      cases ht : tokenize (cutLine l) with
      | none => simp [hn', ht]
      | some p =>
        simp only
        rw [ih]
        simp only [List.mem_cons, forall_eq_or_imp, hn', ht, false_or, Option.some.injEq, exists_eq_left']
        by_cases hc : code = 0
        · simp [hc]
        · simp [hc]

/-- **C95, exit code (partial)**: with a grammar as `hfst-twolc` writes it, the test succeeds if and only if every line that is not
empty and no comment is a pair string that the grammar accepts, or, with -N, that the grammar rejects.  Missing: other grammars, see
`C95_symbols_violated` and `C95_nondeterministic_violated`. -/
theorem C95_exit_partial (tokenize : Str → Option PairString) (grammar : List Rule) (h : Regular grammar) (lines : List Str)
    (hp : ∀ l ∈ lines, ∀ p, tokenize (cutLine l) = some p → Plain p) :
    (pairTest tokenize grammar true lines = 0 ↔
      ∀ l ∈ lines, NoTest (cutLine l) ∨ ∃ p, tokenize (cutLine l) = some p ∧ GrammarAccepts grammar p) ∧
    (pairTest tokenize grammar false lines = 0 ↔
      ∀ l ∈ lines, NoTest (cutLine l) ∨ ∃ p, tokenize (cutLine l) = some p ∧ ¬ GrammarAccepts grammar p) := by
  unfold pairTest
  rw [linesLoop_iff, linesLoop_iff]
  constructor
  · simp only [true_and]
    refine forall_congr' fun l => forall_congr' fun hl => or_congr Iff.rfl (exists_congr fun p => and_congr_right fun ht => ?_)
    rw [code_iff grammar h p (hp l hl p ht)]; simp
  · simp only [true_and]
    refine forall_congr' fun l => forall_congr' fun hl => or_congr Iff.rfl (exists_congr fun p => and_congr_right fun ht => ?_)
    rw [code_iff grammar h p (hp l hl p ht)]; simp

theorem linesLoop_le (tokenize : Str → Option PairString) (grammar : List Rule) (positive : Bool) (lines : List Str) (code : Nat)
    (hc : code ≤ 1) : linesLoop tokenize grammar positive code lines ≤ 1 := by
  induction lines generalizing code with
  | nil => exact hc
  | cons l ls ih =>
    unfold linesLoop
    split
    · exact ih _ hc
    · split
      · exact Nat.le_refl 1
      · refine ih _ ?_
        split
        · rw [testGrammar_eq]; split <;> simp
        · exact hc

/-- **C95, failing tests**: for every grammar, a test that does not succeed ends with exit code 1. -/
theorem C95_one (tokenize : Str → Option PairString) (grammar : List Rule) (positive : Bool) (lines : List Str)
    (h : pairTest tokenize grammar positive lines ≠ 0) : pairTest tokenize grammar positive lines = 1 := by
  have := linesLoop_le tokenize grammar positive lines 0 (Nat.zero_le _)
  unfold pairTest at h ⊢
  omega

/-! ## The cases of a source file -/

theorem marks_differ (l x y : Str) (h1 : caseOf positiveMark l = some x) (h2 : caseOf negativeMark l = some y) : False := by
  unfold caseOf at h1 h2
  have e1 : (stripSpace l).take 3 = positiveMark := by
    split at h1
    · assumption
    · cases h1
  have e2 : (stripSpace l).take 3 = negativeMark := by
    split at h2
    · assumption
    · cases h2
  rw [e1] at e2
  exact absurd e2 (by decide +kernel)

theorem collect_eq (lines : List Str) (c : List Str × List Str) :
    collect c lines = (c.1 ++ markedCases positiveMark lines, c.2 ++ markedCases negativeMark lines) := by
  unfold markedCases
  induction lines generalizing c with
  | nil => simp [collect]
  | cons l ls ih =>
    unfold collect
    cases h1 : caseOf positiveMark (cutLine l) with
    | some x =>
      have h2 : caseOf negativeMark (cutLine l) = none := by
        cases h2 : caseOf negativeMark (cutLine l) with
        | none => rfl
        | some y => exact (marks_differ _ _ _ h1 h2).elim
      simp only [ih, List.filterMap_cons, h1, h2]
      simp
    | none =>
      cases h2 : caseOf negativeMark (cutLine l) with
      | some y =>
        simp only [ih, List.filterMap_cons, h1, h2]
        simp
      | none => simp only [ih, List.filterMap_cons, h1, h2]

theorem casesLoop_iff (tokenize : Str → Str → Option PairString) (grammar : List Rule) (positive : Bool) (n : Nat) (cases_ : List Str)
    (hl : cases_.length = 2 * n) (code : Nat) :
    casesLoop tokenize grammar positive code cases_ = some 0 ↔ code = 0 ∧ ∀ i x y, cases_[2 * i]? = some x →
      cases_[2 * i + 1]? = some y → ∃ p, tokenize x y = some p ∧
        (testGrammar (knownSymbols grammar) grammar positive (withBoundaries p)).1 = 0 := by
  induction n generalizing cases_ code with
  | zero =>
    have : cases_ = [] := List.length_eq_zero_iff.1 (by omega)
    subst this
    simp [casesLoop]
  | succ n ih =>
    rcases cases_ with _ | ⟨a, _ | ⟨b, rest⟩⟩
    · simp at hl
    · simp at hl; omega
    · have hr : rest.length = 2 * n := by simp at hl; omega
      unfold casesLoop
      have split_ : (∀ i x y, (a :: b :: rest)[2 * i]? = some x → (a :: b :: rest)[2 * i + 1]? = some y → ∃ p, tokenize x y = some p ∧
          (testGrammar (knownSymbols grammar) grammar positive (withBoundaries p)).1 = 0) ↔
          (∃ p, tokenize a b = some p ∧ (testGrammar (knownSymbols grammar) grammar positive (withBoundaries p)).1 = 0) ∧
          ∀ i x y, rest[2 * i]? = some x → rest[2 * i + 1]? = some y → ∃ p, tokenize x y = some p ∧
            (testGrammar (knownSymbols grammar) grammar positive (withBoundaries p)).1 = 0 := by
        constructor
        · intro h
          refine ⟨h 0 a b rfl rfl, fun i x y hx hy => h (i + 1) x y ?_ ?_⟩
          · rw [show 2 * (i + 1) = 2 * i + 1 + 1 from by omega]; simpa using hx
          · rw [show 2 * (i + 1) + 1 = 2 * i + 1 + 1 + 1 from by omega]; simpa using hy
        · rintro ⟨h1, h2⟩ i x y hx hy
          cases i with
          | zero =>
            simp only [Nat.mul_zero, List.getElem?_cons_zero, Option.some.injEq, Nat.zero_add, List.getElem?_cons_succ] at hx hy
            rw [← hx, ← hy]; exact h1
          | succ i =>
            refine h2 i x y ?_ ?_
            · rw [show 2 * (i + 1) = 2 * i + 1 + 1 from by omega] at hx; simpa using hx
            · rw [show 2 * (i + 1) + 1 = 2 * i + 1 + 1 + 1 from by omega] at hy; simpa using hy
      rw [split_]
      cases ht : tokenize a b with
      | none => simp
      | some p =>
        simp only
        rw [ih rest hr]
        simp only [Option.some.injEq, exists_eq_left']
        by_cases hc : code = 0
        · simp [hc]
        · simp [hc]

/-- **C95, cases of a source file (partial)**: with -X the test succeeds if and only if the positive lines and the negative lines each
come in pairs, the grammar accepts the pair string of every pair of positive lines, and rejects that of every pair of negative lines.
Missing: other grammars, as above. -/
theorem C95_xerox_partial (tokenize : Str → Str → Option PairString) (grammar : List Rule) (h : Regular grammar) (lines : List Str)
    (hp : ∀ x y p, tokenize x y = some p → Plain p) :
    xerox tokenize grammar lines = 0 ↔
      (∃ n, (markedCases positiveMark lines).length = 2 * n) ∧ (∃ n, (markedCases negativeMark lines).length = 2 * n) ∧
      (∀ i x y, (markedCases positiveMark lines)[2 * i]? = some x → (markedCases positiveMark lines)[2 * i + 1]? = some y →
        ∃ p, tokenize x y = some p ∧ GrammarAccepts grammar p) ∧
      (∀ i x y, (markedCases negativeMark lines)[2 * i]? = some x → (markedCases negativeMark lines)[2 * i + 1]? = some y →
        ∃ p, tokenize x y = some p ∧ ¬ GrammarAccepts grammar p) := by
  unfold xerox
  simp only [collect_eq, List.nil_append]
  generalize markedCases positiveMark lines = P
  generalize markedCases negativeMark lines = N
  by_cases h1 : P.length % 2 = 0
  · by_cases h2 : N.length % 2 = 0
    · rw [if_neg (by simp [h1]), if_neg (by simp [h2])]
      have hP : P.length = 2 * (P.length / 2) := by omega
      have hN : N.length = 2 * (N.length / 2) := by omega
      have e1 := casesLoop_iff tokenize grammar true _ P hP 0
      have c1 : (∀ i x y, P[2 * i]? = some x → P[2 * i + 1]? = some y → ∃ p, tokenize x y = some p ∧
          (testGrammar (knownSymbols grammar) grammar true (withBoundaries p)).1 = 0) ↔
          (∀ i x y, P[2 * i]? = some x → P[2 * i + 1]? = some y → ∃ p, tokenize x y = some p ∧ GrammarAccepts grammar p) := by
        refine forall_congr' fun i => forall_congr' fun x => forall_congr' fun y => forall_congr' fun _ => forall_congr' fun _ =>
          exists_congr fun p => and_congr_right fun ht => ?_
        rw [code_iff grammar h p (hp x y p ht)]; simp
      have c2 : (∀ i x y, N[2 * i]? = some x → N[2 * i + 1]? = some y → ∃ p, tokenize x y = some p ∧
          (testGrammar (knownSymbols grammar) grammar false (withBoundaries p)).1 = 0) ↔
          (∀ i x y, N[2 * i]? = some x → N[2 * i + 1]? = some y → ∃ p, tokenize x y = some p ∧ ¬ GrammarAccepts grammar p) := by
        refine forall_congr' fun i => forall_congr' fun x => forall_congr' fun y => forall_congr' fun _ => forall_congr' fun _ =>
          exists_congr fun p => and_congr_right fun ht => ?_
        rw [code_iff grammar h p (hp x y p ht)]; simp
      rw [c1] at e1
      have key : (match casesLoop tokenize grammar true 0 P with
          | none => 1
          | some code =>
            match casesLoop tokenize grammar false code N with
            | none => 1
            | some code => code) = 0 ↔
          casesLoop tokenize grammar true 0 P = some 0 ∧ casesLoop tokenize grammar false 0 N = some 0 := by
        cases hA : casesLoop tokenize grammar true 0 P with
        | none => simp
        | some code =>
          have e2 := casesLoop_iff tokenize grammar false _ N hN code
          simp only [Option.some.injEq]
          constructor
          · intro hh
            have hB : casesLoop tokenize grammar false code N = some 0 := by
              cases hB : casesLoop tokenize grammar false code N with
              | none => rw [hB] at hh; cases hh
              | some c => rw [hB] at hh; simp only at hh; rw [hh]
            have hc := (e2.1 hB).1
            subst hc
            exact ⟨rfl, hB⟩
          · rintro ⟨rfl, hB⟩
            rw [hB]
      refine Iff.trans key ?_
      rw [e1, casesLoop_iff tokenize grammar false _ N hN 0, c2]
      constructor
      · rintro ⟨⟨_, a⟩, ⟨_, b⟩⟩; exact ⟨⟨_, hP⟩, ⟨_, hN⟩, a, b⟩
      · rintro ⟨_, _, a, b⟩; exact ⟨⟨rfl, a⟩, ⟨rfl, b⟩⟩
    · rw [if_neg (by simp [h1]), if_pos h2]
      constructor
      · intro h3; cases h3
      · rintro ⟨_, ⟨n, hn⟩, _⟩; omega
  · rw [if_pos h1]
    constructor
    · intro h3; cases h3
    · rintro ⟨⟨n, hn⟩, _⟩; omega

end Hfst.PairTest
