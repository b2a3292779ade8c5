import Verif.Props.Reweight
import Verif.Props.FlagHarmonizeDemo

/-!
# C93: rules from a file, and where the tool differs from its help text
-/
namespace Hfst.Reweight
open Hfst.StdString Hfst.Basic Hfst.Basic.Graph

/-! ## Reading the lines -/

theorem splitTab_spec {sym spec : Str} (h : '\t' ∉ sym) : splitTab (sym ++ '\t' :: spec) = some (sym, spec) := by
  induction sym with
  | nil => rfl
  | cons c cs ih =>
    have hc : c ≠ '\t' := fun e => h (e ▸ List.mem_cons_self ..)
    have := ih fun h' => h (List.mem_cons_of_mem _ h')
    rw [List.cons_append]
    unfold splitTab
    split
    · rename_i e; cases e
    · rename_i e; cases e; exact absurd rfl hc
    · rename_i e; cases e; rw [this]; rfl

theorem splitTab_some : ∀ {l sym spec : Str}, splitTab l = some (sym, spec) → '\t' ∉ sym ∧ l = sym ++ '\t' :: spec
  | [], _, _, h => by simp [splitTab] at h
  | c :: cs, sym, spec, h => by
    by_cases hc : c = '\t'
    · subst hc
      simp only [splitTab, Option.some.injEq, Prod.mk.injEq] at h
      obtain ⟨rfl, rfl⟩ := h
      simp
    · have e : splitTab (c :: cs) = (splitTab cs).map fun r => (c :: r.1, r.2) := by
        conv => lhs; unfold splitTab
        split
        · rename_i e; cases e
        · rename_i e; cases e; exact absurd rfl hc
        · rename_i e; cases e; rfl
      rw [e, Option.map_eq_some_iff] at h
      obtain ⟨⟨a, b⟩, h1, h2⟩ := h
      cases h2
      obtain ⟨h3, h4⟩ := splitTab_some h1
      refine ⟨?_, by rw [h4]; rfl⟩
      simp only [List.mem_cons, not_or]
      exact ⟨Ne.symm hc, h3⟩

/-- The options after a rule, as the tool has them: the other value stays. -/
def keepOptions (o : Options) : Rule → Options
  | .add x v => { o with symbol := some x, addition := v }
  | .mul x v => { o with symbol := some x, multiplier := v }

theorem readWeight_other {read : Str → Option Int} {o : Options} {cs : Str} (h : ∀ rest, cs ≠ '+' :: rest) :
    readWeight read o cs = (read cs).map fun v => { o with multiplier := v } := by
  unfold readWeight
  split
  · exact absurd rfl (h _)
  · rfl

theorem rulesLoop_ignored {read : Str → Option Int} {o : Options} {l : Str} {ls : List Str} {g : Graph} (h : Ignored l) :
    rulesLoop read o (l :: ls) g = rulesLoop read o ls g := by
  rcases h with rfl | ⟨rest, rfl⟩ <;> rfl

theorem rulesLoop_line {read : Str → Option Int} {o : Options} {l : Str} {ls : List Str} {g : Graph} (h : ¬ Ignored l) :
    rulesLoop read o (l :: ls) g = match splitTab l with
    | none => none
    | some (sym, spec) =>
      match readWeight read { o with symbol := some sym } spec with
      | none => none
      | some o' => rulesLoop read o' ls (doReweight o' g) := by
  conv => lhs; unfold rulesLoop
  split
  · rename_i e; cases e
  · rename_i e; cases e; exact absurd (.inl rfl) h
  · rename_i e; cases e; exact absurd (.inr ⟨_, rfl⟩) h
  · rename_i e; cases e; rfl

theorem rulesLoop_rule {read : Str → Option Int} {o : Options} {l : Str} {ls : List Str} {g : Graph} {r : Rule} (h : ¬ Ignored l)
    (hs : Says read l r) : rulesLoop read o (l :: ls) g = rulesLoop read (keepOptions o r) ls (doReweight (keepOptions o r) g) := by
  rw [rulesLoop_line h]
  cases hs with
  | add h1 h2 => simp only [splitTab_spec h1, readWeight, h2, Option.map_some, keepOptions]
  | mul h1 h2 h3 => simp only [splitTab_spec h1, readWeight_other h2, h3, Option.map_some, keepOptions]

/-- What the tool does with the rules. -/
def keptRules : Options → List Rule → Graph → Graph
  | _, [], g => g
  | o, r :: rs, g => keptRules (keepOptions o r) rs (doReweight (keepOptions o r) g)

theorem rulesLoop_reads {read : Str → Option Int} {ls : List Str} {rs : List Rule} (h : Reads read ls rs) :
    ∀ (o : Options) (g : Graph), rulesLoop read o ls g = some (rs.foldl keepOptions o, keptRules o rs g) := by
  induction h with
  | nil => exact fun _ _ => rfl
  | ignored h1 _ ih => exact fun o g => by rw [rulesLoop_ignored h1, ih]
  | rule h1 h2 _ ih => exact fun o g => by rw [rulesLoop_rule h1 h2, ih]; rfl

/-- **C93.**  A file is refused exactly if one of its lines is neither ignored nor says a rule. -/
theorem C93_refused (read : Str → Option Int) (o : Options) (ls : List Str) (g : Graph) :
    rulesLoop read o ls g = none ↔ ¬ ∃ rs, Reads read ls rs := by
  constructor
  · rintro h ⟨rs, hr⟩
    rw [rulesLoop_reads hr] at h
    cases h
  · intro h
    induction ls generalizing o g with
    | nil => exact absurd ⟨[], .nil⟩ h
    | cons l ls ih =>
      by_cases hi : Ignored l
      · rw [rulesLoop_ignored hi]
        exact ih o g fun ⟨rs, hr⟩ => h ⟨rs, .ignored hi hr⟩
      · rw [rulesLoop_line hi]
        cases hsp : splitTab l with
        | none => rfl
        | some p =>
          obtain ⟨sym, spec⟩ := p
          obtain ⟨h1, rfl⟩ := splitTab_some hsp
          simp only
          cases hw : readWeight read { o with symbol := some sym } spec with
          | none => rfl
          | some o' =>
            refine ih o' _ fun ⟨rs, hr⟩ => ?_
            by_cases hp : ∃ rest, spec = '+' :: rest
            · obtain ⟨rest, rfl⟩ := hp
              simp only [readWeight, Option.map_eq_some_iff] at hw
              obtain ⟨v, hv, _⟩ := hw
              exact h ⟨_, .rule hi (.add h1 hv) hr⟩
            · have hp' : ∀ rest, spec ≠ '+' :: rest := fun rest e => hp ⟨rest, e⟩
              rw [readWeight_other hp', Option.map_eq_some_iff] at hw
              obtain ⟨v, hv, _⟩ := hw
              exact h ⟨_, .rule hi (.mul h1 hp' hv) hr⟩

/-! ## What the rules do -/

/-- All rules are additions, or all are multiplications. -/
def OneKind (rs : List Rule) : Prop := (∀ r ∈ rs, ∃ x v, r = .add x v) ∨ ∀ r ∈ rs, ∃ x v, r = .mul x v

/-- The values that a rule does not give are neutral. -/
def Neutral (o : Options) (rs : List Rule) : Prop :=
  ((∀ r ∈ rs, ∃ x v, r = Rule.add x v) ∧ o.multiplier = 1) ∨ ((∀ r ∈ rs, ∃ x v, r = Rule.mul x v) ∧ o.addition = 0)

theorem neutral_options {o : Options} {r : Rule} {rs : List Rule} (h : Neutral o (r :: rs)) :
    keepOptions o r = r.options o ∧ Neutral (keepOptions o r) rs := by
  rcases h with ⟨h, e⟩ | ⟨h, e⟩
  · obtain ⟨x, v, rfl⟩ := h r (List.mem_cons_self ..)
    exact ⟨by simp only [keepOptions, Rule.options, ← e], .inl ⟨fun r hr => h r (List.mem_cons_of_mem _ hr), e⟩⟩
  · obtain ⟨x, v, rfl⟩ := h r (List.mem_cons_self ..)
    exact ⟨by simp only [keepOptions, Rule.options, ← e], .inr ⟨fun r hr => h r (List.mem_cons_of_mem _ hr), e⟩⟩

theorem options_options (o : Options) (r r' : Rule) : r'.options (r.options o) = r'.options o := by
  cases r <;> cases r' <;> rfl

theorem keptRules_takes : ∀ (rs : List Rule) (o : Options) (g : Graph), Neutral o rs → ∀ l' f',
    Takes (keptRules o rs g) l' f' ↔
      ∃ l f, Takes g l f ∧ l' = l.map (fun p => (p.1, p.2.1, rulesArc o rs p.1 p.2.1 p.2.2)) ∧ f' = rulesEnd o rs f
  | [], o, g, _, l', f' => by
    constructor
    · exact fun h => ⟨l', f', h, by simp [rulesArc], rfl⟩
    · rintro ⟨l, f, h, rfl, rfl⟩
      simpa [rulesArc, rulesEnd, keptRules] using h
  | r :: rs, o, g, hn, l', f' => by
    obtain ⟨e, hn'⟩ := neutral_options hn
    have ha : ∀ i u w, rulesArc (r.options o) rs i u w = rulesArc o rs i u w := fun i u w => by
      simp only [rulesArc, options_options]
    have hb : ∀ w, rulesEnd (r.options o) rs w = rulesEnd o rs w := fun w => by
      simp only [rulesEnd, options_options]
    show Takes (keptRules (keepOptions o r) rs (doReweight (keepOptions o r) g)) l' f' ↔ _
    rw [keptRules_takes rs _ _ hn', e]
    constructor
    · rintro ⟨k, v, hk, rfl, rfl⟩
      obtain ⟨l, f, hl, rfl, rfl⟩ := ((C93_reweight _ g).1 _ _).1 hk
      refine ⟨l, f, hl, ?_, hb _⟩
      rw [List.map_map]
      apply List.map_congr_left
      intro p _
      simp only [Function.comp, ha]
      rfl
    · rintro ⟨l, f, hl, rfl, rfl⟩
      refine ⟨_, _, ((C93_reweight _ g).1 _ _).2 ⟨l, f, hl, rfl, rfl⟩, ?_, (hb _).symm⟩
      rw [List.map_map]
      apply List.map_congr_left
      intro p _
      simp only [Function.comp, ha]
      rfl

theorem keptRules_symbol (o : Options) (x : Option Sym) (rs : List Rule) (g : Graph) :
    keptRules { o with symbol := x } rs g = keptRules o rs g := by
  cases rs with
  | nil => rfl
  | cons r rs => cases r <;> rfl

/-- Only the two values and the symbol are different. -/
theorem foldl_keep (rs : List Rule) : ∀ o : Options,
    ({ rs.foldl keepOptions o with addition := 0, multiplier := 1, symbol := none } : Options) =
      { o with addition := 0, multiplier := 1, symbol := none } := by
  induction rs with
  | nil => exact fun _ => rfl
  | cons r rs ih =>
    intro o
    rw [List.foldl_cons, ih]
    cases r <;> rfl

theorem isRule_iff {l : Str} : isRule l = true ↔ ¬ Ignored l := by
  unfold isRule Ignored
  split
  · simp
  · simp
  · rename_i h1 h2
    simp only [true_iff, not_or, not_exists]
    exact ⟨h1, h2⟩

theorem any_isRule {read : Str → Option Int} {ls : List Str} {rs : List Rule} (h : Reads read ls rs) :
    ls.any isRule = !rs.isEmpty := by
  induction h with
  | nil => rfl
  | ignored h1 _ ih =>
    rw [List.any_cons, ih]
    cases e : isRule _ with
    | false => rfl
    | true => exact absurd h1 (isRule_iff.1 e)
  | rule h1 _ _ _ =>
    rw [List.any_cons, isRule_iff.2 h1]; rfl

theorem rulesStream_eq {read : Str → Option Int} (removeEpsilons : Graph → Graph) {ls : List Str} {rs : List Rule}
    (h : Reads read ls rs) : ∀ (gs : List Graph) (o : Options), (rs ≠ [] ∨ o.symbol = none) →
    rulesStream read removeEpsilons ls o false gs =
      ⟨gs.map fun g => removeEpsilons (keptRules { o with addition := 0, multiplier := 1, symbol := none } rs g), .success⟩
  | [], _, _ => rfl
  | g :: gs, o, hs => by
    have hfreed : (o.symbol.isSome && !ls.any isRule) = false := by
      rw [any_isRule h]
      rcases hs with hs | hs
      · cases rs with
        | nil => exact absurd rfl hs
        | cons r rs => simp
      · rw [hs]; rfl
    have hnext : rs ≠ [] ∨ (rs.foldl keepOptions { o with addition := 0, multiplier := 1 }).symbol = none := by
      rcases hs with hs | hs
      · exact .inl hs
      · cases rs with
        | nil => exact .inr hs
        | cons r rs => exact .inl (List.cons_ne_nil _ _)
    unfold rulesStream
    simp only [Bool.false_eq_true, if_false, rulesLoop_reads h, hfreed]
    rw [rulesStream_eq removeEpsilons h gs _ hnext, foldl_keep]
    unfold Tools.Run.after
    simp only [List.map_cons]
    rw [← keptRules_symbol _ none]

/-- **C93, rules from a file of one kind**: every transducer of the archive is changed by all rules one after the other.  Not true
without the restriction to one kind (`C93_rules_violated`), nor for an option -S and a file without rules
(`C93_freed_violated`). -/
theorem C93_rules_partial (read : Str → Option Int) (removeEpsilons : Graph → Graph) (o : Options) (ls : List Str) (rs : List Rule)
    (gs : List Graph) (h : Reads read ls rs) (hk : OneKind rs) (hs : rs ≠ [] ∨ o.symbol = none) :
    ∃ change : Graph → Graph,
      reweightStream read removeEpsilons o (some ls) gs = ⟨gs.map fun g => removeEpsilons (change g), .success⟩ ∧
      ∀ g l' f', Takes (change g) l' f' ↔
        ∃ l f, Takes g l f ∧ l' = l.map (fun p => (p.1, p.2.1, rulesArc o rs p.1 p.2.1 p.2.2)) ∧ f' = rulesEnd o rs f := by
  refine ⟨fun g => keptRules { o with addition := 0, multiplier := 1, symbol := none } rs g,
    rulesStream_eq removeEpsilons h gs o hs, fun g l' f' => ?_⟩
  rw [keptRules_takes rs _ g (hk.imp (fun h => ⟨h, rfl⟩) fun h => ⟨h, rfl⟩)]
  have ho : ∀ r : Rule, r.options { o with addition := 0, multiplier := 1, symbol := none } = r.options o := fun r => by
    cases r <;> rfl
  have ha : ∀ i u w, rulesArc { o with addition := 0, multiplier := 1, symbol := none } rs i u w = rulesArc o rs i u w :=
    fun i u w => by simp only [rulesArc, ho]
  have hb : ∀ w, rulesEnd { o with addition := 0, multiplier := 1, symbol := none } rs w = rulesEnd o rs w :=
    fun w => by simp only [rulesEnd, ho]
  simp only [ha, hb]

/-- Without a file of rules, every transducer of the archive is changed by the options. -/
theorem C93_stream (read : Str → Option Int) (removeEpsilons : Graph → Graph) (o : Options) (gs : List Graph) :
    ∃ change : Graph → Graph,
      reweightStream read removeEpsilons o none gs = ⟨gs.map fun g => removeEpsilons (change g), .success⟩ ∧
      ∀ g l' f', Takes (change g) l' f' ↔
        ∃ l f, Takes g l f ∧ l' = l.map (fun p => (p.1, p.2.1, newArc o p.1 p.2.1 p.2.2)) ∧ f' = newEnd o f :=
  ⟨doReweight o, rfl, fun g => (C93_reweight o g).1⟩

/-! ## Where the tool differs from its help text -/

/-- One transition with `a` and a weight, to a final state with the weight 0. -/
def oneArc (w : Int) : Graph :=
  { states := [[⟨1, ['a'], ['a'], w⟩], []], finals := [(1, 0)], alphabet := [epsilon, unknown, identity, ['a']] }

theorem oneArc_takes {w : Int} {l : List (Sym × Sym × Int)} {f : Int} :
    Takes (oneArc w) l f ↔ l = [(['a'], ['a'], w)] ∧ f = 0 := by
  have harcs : ∀ s a, a ∈ (oneArc w).arcs s ↔ s = 0 ∧ a = ⟨1, ['a'], ['a'], w⟩ := by
    intro s a
    match s with
    | 0 => simp [oneArc, Graph.arcs]
    | 1 => simp [oneArc, Graph.arcs]
    | n + 2 => simp [oneArc, Graph.arcs]
  have hfin : ∀ s v, (oneArc w).final s = some v ↔ s = 1 ∧ v = 0 := by
    intro s v
    unfold oneArc Graph.final
    by_cases h : s = 1
    · subst h; simp [mapGet, eq_comm]
    · simp [mapGet, h, Ne.symm h]
  constructor
  · rintro ⟨q, hw, hf⟩
    obtain ⟨rfl, rfl⟩ := (hfin _ _).1 hf
    refine ⟨?_, rfl⟩
    cases hw with
    | cons ha hw' =>
      obtain ⟨_, rfl⟩ := (harcs _ _).1 ha
      cases hw' with
      | nil => rfl
      | cons ha' _ => exact absurd ((harcs _ _).1 ha').1 Nat.one_ne_zero
  · rintro ⟨rfl, rfl⟩
    exact ⟨1, .cons (a := ⟨1, ['a'], ['a'], w⟩) ((harcs _ _).2 ⟨rfl, rfl⟩) (.nil 1), (hfin _ _).2 ⟨rfl, rfl⟩⟩

/-- Reading of weights that are single digits, for the examples. -/
def digit : Str → Option Int
  | [c] => if c.isDigit then some (c.toNat - 48 : Nat) else none
  | _ => none

theorem says_add : Says digit "a\t+1".toList (.add ['a'] 1) := .add (sym := ['a']) (num := ['1']) (by decide) rfl
theorem says_mul : Says digit "a\t2".toList (.mul ['a'] 2) :=
  .mul (sym := ['a']) (num := ['2']) (by decide) (by intro r; simp) rfl

theorem not_ignored_a (cs : Str) : ¬ Ignored ('a' :: cs) := by
  rintro (h | ⟨r, h⟩)
  · cases h
  · exact absurd (List.cons.inj h).1 (by decide)

/-- **C93 is violated by a file with rules of both kinds**: the value of an earlier line stays.  With the lines `a +1` and `a 2` the
weight 1 should become (1 + 1) * 2 = 4; it becomes 5, because the second line also adds 1. -/
theorem C93_rules_violated (removeEpsilons : Graph → Graph) :
    ∃ (read : Str → Option Int) (ls : List Str) (rs : List Rule) (g g' : Graph) (x : Sym) (w w' : Int), Reads read ls rs ∧
      reweightStream read removeEpsilons {} (some ls) [g] = ⟨[removeEpsilons g'], .success⟩ ∧
      (∀ l f, Takes g l f ↔ l = [(x, x, w)] ∧ f = 0) ∧ (∃ f, Takes g' [(x, x, w')] f) ∧ w' ≠ rulesArc {} rs x x w := by
  have hr : Reads digit ["a\t+1".toList, "a\t2".toList] [.add ['a'] 1, .mul ['a'] 2] :=
    .rule (not_ignored_a _) says_add (.rule (not_ignored_a _) says_mul .nil)
  have hm : ∀ (o : Options) (w : Int), o.lower ≤ w → w ≤ o.upper → o.endsOnly = false → o.input = none → o.output = none →
      o.symbol = some ['a'] → newArc o ['a'] ['a'] w = o.multiplier * o.func w + o.addition := by
    intro o w h1 h2 h3 h4 h5 h6
    unfold newArc
    rw [if_pos]
    exact ⟨h1, h2, h3, by rw [h4]; simp, by rw [h5]; simp, by rw [h6]; simp⟩
  refine ⟨digit, _, _, oneArc 1, keptRules {} [.add ['a'] 1, .mul ['a'] 2] (oneArc 1), ['a'], 1, 5, hr, ?_,
    fun l f => oneArc_takes, ?_, ?_⟩
  · show rulesStream _ _ _ _ _ _ = _
    rw [rulesStream_eq removeEpsilons hr _ _ (.inr rfl)]
    rfl
  · have e1 := ((C93_reweight (keepOptions {} (.add ['a'] 1)) (oneArc 1)).1 _ _).2
      ⟨_, _, oneArc_takes.2 ⟨rfl, rfl⟩, rfl, rfl⟩
    have e2 := ((C93_reweight (keepOptions (keepOptions {} (.add ['a'] 1)) (.mul ['a'] 2)) _).1 _ _).2 ⟨_, _, e1, rfl, rfl⟩
    have hw1 := hm (keepOptions {} (.add ['a'] 1)) 1 (by decide) (by decide) rfl rfl rfl rfl
    have hw2 := hm (keepOptions (keepOptions {} (.add ['a'] 1)) (.mul ['a'] 2)) 2 (by decide) (by decide) rfl rfl rfl rfl
    have hv1 : newArc (keepOptions {} (.add ['a'] 1)) ['a'] ['a'] 1 = 2 := hw1
    have hv2 : newArc (keepOptions (keepOptions {} (.add ['a'] 1)) (.mul ['a'] 2)) ['a'] ['a'] 2 = 5 := hw2
    simp only [List.map_cons, List.map_nil, hv1, hv2] at e2
    exact ⟨_, e2⟩
  · have hw1 : newArc ((Rule.add ['a'] 1).options {}) ['a'] ['a'] 1 = 2 :=
      hm _ 1 (by decide) (by decide) rfl rfl rfl rfl
    have hw2 : newArc ((Rule.mul ['a'] 2).options {}) ['a'] ['a'] 2 = 4 :=
      hm _ 2 (by decide) (by decide) rfl rfl rfl rfl
    simp only [rulesArc, List.foldl_cons, List.foldl_nil, hw1, hw2]
    decide

/-- **C93 is violated for a file without rules, if the option -S is given, too**: the memory of the symbol is freed once for every
transducer of the archive. -/
theorem C93_freed_violated (read : Str → Option Int) (removeEpsilons : Graph → Graph) (o : Options) (x : Sym)
    (ho : o.symbol = some x) (ls : List Str) (h : Reads read ls []) (g g' : Graph) (gs : List Graph) :
    reweightStream read removeEpsilons o (some ls) (g :: g' :: gs) = ⟨[removeEpsilons g], .undefined⟩ := by
  show rulesStream _ _ _ _ _ _ = _
  unfold rulesStream
  simp only [Bool.false_eq_true, if_false, rulesLoop_reads h, any_isRule h, ho, Option.isSome_some]
  rfl

/-- **C93 is violated by the default of the lower bound**: it is documented to be the least weight, but it is 0, so that no negative
weight is changed by default. -/
theorem C93_negative_violated (a b : Int) (i u : Sym) (w : Int) (hw : w < 0) :
    newArc { addition := a, multiplier := b } i u w = w ∧
    ∀ f, (∃ l f', Takes (doReweight { addition := a, multiplier := b } (oneArc w)) l f' ∧ l = [(['a'], ['a'], f)]) ↔ f = w := by
  have hn : ∀ i u, newArc { addition := a, multiplier := b } i u w = w := fun i u => by
    unfold newArc
    rw [if_neg]
    exact fun h => absurd h.1 (by simpa using hw)
  refine ⟨hn i u, fun f => ?_⟩
  constructor
  · rintro ⟨l, f', ht, rfl⟩
    obtain ⟨l, v, hl, e, _⟩ := ((C93_reweight _ _).1 _ _).1 ht
    obtain ⟨rfl, _⟩ := oneArc_takes.1 hl
    simp only [List.map_cons, List.map_nil, hn, List.cons.injEq, Prod.mk.injEq, and_true, true_and] at e
    exact e
  · rintro rfl
    refine ⟨_, _, ((C93_reweight _ _).1 _ _).2 ⟨_, _, oneArc_takes.2 ⟨rfl, rfl⟩, rfl, rfl⟩, ?_⟩
    simp only [List.map_cons, List.map_nil, hn]

/-- Any symbol that is not in the alphabet. -/
def anySym (al : List Sym) : Graph :=
  { states := [[⟨1, identity, identity, 0⟩], []], finals := [(1, 0)], alphabet := [epsilon, unknown, identity] ++ al }

/-- **C93 is violated for symbols that are in the alphabet only**: the copy has the symbols of the transitions only.  Here a
transducer accepts every symbol except `b`, and the copy made with neutral values accepts `b`, too. -/
theorem C93_alphabet_violated : ∃ g b, WF g ∧ AlphaOK g ∧ Trans.Means (doReweight {} g) [(b, b)] 0 ∧ ∀ w, ¬ Trans.Means g [(b, b)] w := by
  have harcs : ∀ {al : List Sym} {s : Nat} {a : Arc}, a ∈ (anySym al).arcs s ↔ s = 0 ∧ a = ⟨1, identity, identity, 0⟩ := by
    intro al s a
    match s with
    | 0 => simp [anySym, Graph.arcs]
    | 1 => simp [anySym, Graph.arcs]
    | n + 2 => simp [anySym, Graph.arcs]
  have hfin : ∀ {al : List Sym} {s : Nat} {v : Int}, (anySym al).final s = some v ↔ s = 1 ∧ v = 0 := by
    intro al s v
    unfold anySym Graph.final
    by_cases h : s = 1
    · subst h; simp [mapGet, eq_comm]
    · simp [mapGet, h, Ne.symm h]
  have e : doReweight {} (anySym [['b']]) = anySym [] := by decide +kernel
  refine ⟨anySym [['b']], ['b'], ⟨by simp [anySym], ?_, ?_⟩, ⟨?_, by simp [anySym], by simp [anySym], by simp [anySym]⟩, ?_, ?_⟩
  · intro s a ha
    rw [(harcs.1 ha).2]; simp [anySym]
  · intro s v hv
    rw [(hfin.1 hv).1]; simp [anySym]
  · intro s a ha
    rw [(harcs.1 ha).2]; simp [anySym]
  · rw [e]
    refine ⟨[(['b'], ['b'])], 0, ⟨1, 0, 0, ?_, hfin.2 ⟨rfl, rfl⟩, rfl⟩, by decide +kernel, Int.le_refl _⟩
    exact .cons (a := ⟨1, identity, identity, 0⟩) (w := 0) (harcs.2 ⟨rfl, rfl⟩)
      (.identity rfl rfl ⟨⟨by decide, by decide, by decide, by decide +kernel, by decide +kernel⟩, by decide⟩) (.nil 1)
  · intro w hw
    obtain ⟨s, a, ha, hst⟩ := FlagHarm.mem_means hw _ (List.mem_cons_self ..)
    have key : ∀ x : Sym, x = ['b'] → Outside (anySym [['b']]).alphabet x → False := by
      rintro x rfl ho
      exact ho.2 (by simp [anySym])
    obtain ⟨_, rfl⟩ := harcs.1 ha
    generalize hq : (['b'], ['b']) = q at hst
    cases hst with
    | itself h1 h2 h3 h4 => exact h2 rfl
    | identity _ _ ho => exact key _ (congrArg Prod.fst hq).symm ho
    | input _ _ _ ho => exact key _ (congrArg Prod.fst hq).symm ho
    | output _ _ _ ho => exact key _ (congrArg Prod.snd hq).symm ho
    | both _ _ ho => exact key _ (congrArg Prod.fst hq).symm ho

/-! ## Examples -/

/-- A transition with `a` and the weight 3 becomes 2 * 3 + 1; one with another symbol stays. -/
example : newArc { multiplier := 2, addition := 1, input := some ['a'] } ['a'] ['b'] 3 = 7 ∧
    newArc { multiplier := 2, addition := 1, input := some ['a'] } ['b'] ['a'] 3 = 3 := by
  constructor
  · unfold newArc
    rw [if_pos]
    · rfl
    · exact ⟨by decide, by decide, rfl, by simp, by simp, by simp⟩
  · unfold newArc
    rw [if_neg]
    exact fun h => absurd (h.2.2.2.1 ['a'] rfl) (by decide)

/-- A loop and states that are met in another order than they are numbered. -/
def sampleGraph : Graph :=
  { states := [[⟨2, ['a'], ['b'], 1⟩, ⟨1, ['c'], ['c'], 5⟩], [⟨1, ['a'], ['a'], 2⟩], [⟨0, ['b'], ['b'], 0⟩]],
    finals := [(1, 4), (2, 0)], alphabet := [epsilon, unknown, identity, ['a'], ['b'], ['c']] }

example : doReweight { multiplier := 2, addition := 1, symbol := some ['a'] } sampleGraph =
    { states := [[⟨1, ['a'], ['b'], 3⟩, ⟨2, ['c'], ['c'], 5⟩], [⟨0, ['b'], ['b'], 0⟩], [⟨2, ['a'], ['a'], 5⟩]],
      finals := [(2, 9), (1, 1)], alphabet := [['c'], ['b'], ['a'], epsilon, unknown, identity] } := by decide +kernel

/-- A file with a comment, an empty line and two additions. -/
example : ∃ rs, Reads digit ["# rules".toList, "a\t+1".toList, [], "a\t+1".toList] rs ∧ OneKind rs ∧ rs ≠ [] :=
  ⟨[.add ['a'] 1, .add ['a'] 1], .ignored (.inr ⟨_, rfl⟩) (.rule (not_ignored_a _) says_add (.ignored (.inl rfl)
    (.rule (not_ignored_a _) says_add .nil))), .inl (by simp), by simp⟩

/-- A file with a line without a tab is refused; so is one with a weight that is no number. -/
example : rulesLoop digit {} ["a\t+1".toList, "b".toList] sampleGraph = none ∧
    rulesLoop digit {} ["a\t+x".toList] sampleGraph = none := ⟨rfl, rfl⟩

/-- A file with a comment only. -/
example : Reads digit ["#".toList] [] := .ignored (.inr ⟨_, rfl⟩) .nil

end Hfst.Reweight
