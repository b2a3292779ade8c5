import Verif.Spec.FlagHarmonize
import Verif.Lemmas.Graph
import Verif.Props.FlagLogic
import Verif.Props.FlagUnescape

/-!
# Lemmas about renaming and inserting flags
-/
namespace Hfst.FlagHarm
open Hfst.Basic Hfst.Trans Hfst.Basic.Graph

/-! ## Names -/

theorem addSuffix_spell {o : Char} {f : Sym} {v : Option Sym} (h : Flags.WellFormed o f v) (suf : Sym) :
    addSuffix (Flags.spell o f v) suf = some (Flags.spell o (f ++ suf) v) := by
  obtain ⟨h1, h2, h3, h4⟩ := Flags.C01_parts o f v h
  unfold addSuffix
  rw [h1, h2, h3, h4]
  cases v <;> simp [Flags.spell]

theorem wellFormed_suffix {o : Char} {f : Sym} {v : Option Sym} (h : Flags.WellFormed o f v) {suf : Sym}
    (hs : '.' ∉ suf) : Flags.WellFormed o (f ++ suf) v := by
  obtain ⟨h1, h2, h3⟩ := h
  refine ⟨h1, by simp [h2, hs], fun hv => ⟨by simp [(h3 hv).1], (h3 hv).2⟩⟩

theorem readFlag_spell {o : Char} {f : Sym} {v : Option Sym} (h : Flags.WellFormed o f v) :
    readFlag (Flags.spell o f v) = some (o, f, v.getD []) := by
  obtain ⟨h1, h2, h3, _⟩ := Flags.C01_parts o f v h
  unfold readFlag
  rw [if_pos ((Flags.C01_isDiacritic_iff _).2 ⟨o, f, v, h, rfl⟩), h1, h2, h3]

theorem renameSym_spell {o : Char} {f : Sym} {v : Option Sym} (h : Flags.WellFormed o f v) (suf : Sym) :
    renameSym suf (Flags.spell o f v) = Flags.spell o (f ++ suf) v := by
  unfold renameSym
  rw [if_pos ((Flags.C01_isDiacritic_iff _).2 ⟨o, f, v, h, rfl⟩), addSuffix_spell h]
  rfl

theorem renameSym_other {x : Sym} (h : Flags.isDiacritic x = false) (suf : Sym) : renameSym suf x = x := by
  unfold renameSym
  rw [h]; rfl

theorem isDiacritic_renameSym {suf : Sym} (hs : '.' ∉ suf) (x : Sym) :
    Flags.isDiacritic (renameSym suf x) = Flags.isDiacritic x := by
  cases h : Flags.isDiacritic x with
  | false => rw [renameSym_other h, h]
  | true =>
    obtain ⟨o, f, v, hw, rfl⟩ := (Flags.C01_isDiacritic_iff x).1 h
    rw [renameSym_spell hw]
    exact (Flags.C01_isDiacritic_iff _).2 ⟨o, f ++ suf, v, wellFormed_suffix hw hs, rfl⟩

theorem readFlag_renameSym {suf : Sym} (hs : '.' ∉ suf) (x : Sym) :
    readFlag (renameSym suf x) = (readFlag x).map fun t => (t.1, t.2.1 ++ suf, t.2.2) := by
  cases h : Flags.isDiacritic x with
  | false => rw [renameSym_other h, readFlag_none h]; rfl
  | true =>
    obtain ⟨o, f, v, hw, rfl⟩ := (Flags.C01_isDiacritic_iff x).1 h
    rw [renameSym_spell hw, readFlag_spell (wellFormed_suffix hw hs), readFlag_spell hw]
    rfl

theorem readFlag_isSome {x : Sym} : (readFlag x).isSome = Flags.isDiacritic x := by
  cases h : Flags.isDiacritic x with
  | false => rw [readFlag_none h]; rfl
  | true => rw [readFlag_some h]; rfl

/-! ## Strings -/

/-- Renaming keeps whether the flags let through. -/
theorem obeysFrom_rename {suf : Sym} (hs : '.' ∉ suf) : ∀ (s : List Sym) (F G : Sym → Held),
    (∀ f, G (f ++ suf) = F f) → (ObeysFrom G (s.map (renameSym suf)) ↔ ObeysFrom F s)
  | [], _, _, _ => Iff.rfl
  | x :: s, F, G, h => by
    simp only [List.map_cons, ObeysFrom, readFlag_renameSym hs]
    cases hx : readFlag x with
    | none => exact obeysFrom_rename hs s F G h
    | some t =>
      obtain ⟨o, f, v⟩ := t
      simp only [Option.map_some, h]
      rw [obeysFrom_rename hs s (fun f' => if f' = f then (F f).next o v else F f')]
      intro f'
      simp only [List.append_cancel_right_eq, h]

/-- No flag, or one whose feature is as asked. -/
def keeps (P : Sym → Bool) (x : Sym) : Bool :=
  match readFlag x with
  | none => true
  | some t => P t.2.1

/-- Flags with different features have nothing to do with each other. -/
theorem obeysFrom_apart (P : Sym → Bool) : ∀ (s : List Sym) (F F1 F2 : Sym → Held),
    (∀ f, P f = true → F f = F1 f) → (∀ f, P f = false → F f = F2 f) →
    (ObeysFrom F s ↔
      ObeysFrom F1 (s.filter (keeps P)) ∧
      ObeysFrom F2 (s.filter (keeps fun f => !P f)))
  | [], _, _, _, _, _ => by simp [ObeysFrom]
  | x :: s, F, F1, F2, h1, h2 => by
    cases hx : readFlag x with
    | none =>
      simp only [List.filter_cons, keeps, hx, if_true, ObeysFrom]
      exact obeysFrom_apart P s F F1 F2 h1 h2
    | some t =>
      obtain ⟨o, f, v⟩ := t
      cases hp : P f with
      | true =>
        simp only [List.filter_cons, keeps, hx, hp, if_true, Bool.not_true, Bool.false_eq_true, if_false, ObeysFrom]
        rw [obeysFrom_apart P s (fun f' => if f' = f then (F f).next o v else F f')
          (fun f' => if f' = f then (F1 f).next o v else F1 f') F2, h1 f hp, and_assoc]
        · intro f' hf'; simp only [h1 f hp, h1 f' hf']
        · intro f' hf'
          have : f' ≠ f := by rintro rfl; rw [hp] at hf'; cases hf'
          simp only [this, if_false, h2 f' hf']
      | false =>
        simp only [List.filter_cons, keeps, hx, hp, if_true, Bool.not_false, Bool.false_eq_true, if_false, ObeysFrom]
        rw [obeysFrom_apart P s (fun f' => if f' = f then (F f).next o v else F f') F1
          (fun f' => if f' = f then (F2 f).next o v else F2 f'), h2 f hp]
        · tauto
        · intro f' hf'
          have : f' ≠ f := by rintro rfl; rw [hp] at hf'; cases hf'
          simp only [this, if_false, h1 f' hf']
        · intro f' hf'; simp only [h2 f hp, h2 f' hf']

/-! ## Renaming a transducer -/

/-- A symbol pair with its flags renamed. -/
def renamePair (suf : Sym) (p : Sym × Sym) : Sym × Sym := (renameSym suf p.1, renameSym suf p.2)

theorem renameState_eq (suf : Sym) (s : Nat) (l : List Arc) (c : Graph) :
    renameState suf s l c =
      (l.map fun a => (s, renameArc suf a)).foldl (fun g e => g.addTransition e.1 e.2) c := by
  unfold renameState
  rw [List.foldl_map]

theorem arcs_renameState (suf : Sym) (s : Nat) (l : List Arc) (c : Graph) (t : Nat) :
    (renameState suf s l c).arcs t = if t = s then c.arcs t ++ l.map (renameArc suf) else c.arcs t := by
  rw [renameState_eq, foldl_addTransition_arcs]
  split
  · rename_i h; subst h
    congr 1
    rw [List.filter_eq_self.2 (by simp)]
    simp
  · rename_i h
    rw [List.filter_eq_nil_iff.2]
    · simp
    · intro e he
      obtain ⟨a, _, rfl⟩ := List.mem_map.1 he
      simpa using fun h' => h h'.symm

theorem final_renameState (suf : Sym) (s : Nat) (l : List Arc) (c : Graph) (t : Nat) :
    (renameState suf s l c).final t = c.final t := by
  rw [renameState_eq, foldl_addTransition_final]

theorem alphabet_renameState (suf : Sym) (s : Nat) (l : List Arc) (c : Graph) (x : Sym) :
    x ∈ (renameState suf s l c).alphabet ↔
      x ∈ c.alphabet ∨ ∃ a ∈ l, x = renameSym suf a.inp ∨ x = renameSym suf a.out := by
  rw [renameState_eq, foldl_addTransition_alphabet]
  simp [renameArc]

theorem arcs_copyFinal (g : Graph) (s : Nat) (c : Graph) (t : Nat) : (copyFinal g s c).arcs t = c.arcs t := by
  unfold copyFinal; split
  · rfl
  · simp

theorem final_copyFinal (g : Graph) (s : Nat) (c : Graph) (t : Nat) :
    (copyFinal g s c).final t = if t = s ∧ g.final s ≠ none then g.final s else c.final t := by
  unfold copyFinal; split
  · rename_i h; simp [h]
  · rename_i w h
    rw [final_setFinal]
    by_cases ht : t = s <;> simp [ht, h]

theorem alphabet_copyFinal (g : Graph) (s : Nat) (c : Graph) : (copyFinal g s c).alphabet = c.alphabet := by
  unfold copyFinal; split <;> rfl

theorem renameLoop_spec (suf : Sym) (g : Graph) : ∀ (ls : List (List Arc)) (s : Nat) (c : Graph),
    (∀ t, (renameLoop suf g s ls c).arcs t =
      c.arcs t ++ (if s ≤ t then ((ls[t - s]?).getD []).map (renameArc suf) else [])) ∧
    (∀ t, (renameLoop suf g s ls c).final t =
      if (s ≤ t ∧ t < s + ls.length) ∧ g.final t ≠ none then g.final t else c.final t) ∧
    (∀ x, x ∈ (renameLoop suf g s ls c).alphabet ↔
      x ∈ c.alphabet ∨ ∃ l ∈ ls, ∃ a ∈ l, x = renameSym suf a.inp ∨ x = renameSym suf a.out)
  | [], s, c => by
    refine ⟨fun t => by simp [renameLoop], fun t => ?_, fun x => by simp [renameLoop]⟩
    rw [if_neg]
    · rfl
    · simp only [List.length_nil]; omega
  | l :: ls, s, c => by
    obtain ⟨h1, h2, h3⟩ := renameLoop_spec suf g ls (s + 1) (copyFinal g s (renameState suf s l c))
    simp only [renameLoop]
    refine ⟨fun t => ?_, fun t => ?_, fun x => ?_⟩
    · rw [h1, arcs_copyFinal, arcs_renameState]
      by_cases ht : t = s
      · subst ht
        have : ¬ t + 1 ≤ t := by omega
        simp only [this, if_false, if_true, Nat.le_refl, Nat.sub_self, List.getElem?_cons_zero, Option.getD_some,
          List.append_nil]
      · by_cases hle : s ≤ t
        · obtain ⟨d, hd⟩ : ∃ d, t - s = d + 1 := ⟨t - s - 1, by omega⟩
          have hd' : t - (s + 1) = d := by omega
          have : s + 1 ≤ t := by omega
          simp [ht, hle, this, hd, hd']
        · have : ¬ s + 1 ≤ t := by omega
          simp [ht, hle, this]
    · rw [h2, final_copyFinal, final_renameState]
      simp only [List.length_cons]
      by_cases hn : g.final t = none
      · by_cases ht : t = s
        · subst ht; simp [hn]
        · simp [hn, ht]
      · by_cases ht : t = s
        · subst ht; simp [hn]
        · simp only [hn, ht, false_and, if_false, ne_eq, not_false_eq_true, and_true]
          split <;> split <;> first | rfl | omega
    · rw [h3, alphabet_copyFinal, alphabet_renameState]
      simp only [List.mem_cons, exists_eq_or_imp, or_assoc]

theorem arcs_rename (suf : Sym) (g : Graph) (t : Nat) : (rename suf g).arcs t = (g.arcs t).map (renameArc suf) := by
  unfold rename
  rw [(renameLoop_spec suf g g.states 0 _).1]
  have : (Graph.init.addStateN g.maxState).arcs t = [] := by
    rw [arcs_addStateN]; cases t <;> rfl
  rw [this]
  simp [Graph.arcs]

theorem final_rename {g : Graph} (hg : WF g) (suf : Sym) (t : Nat) : (rename suf g).final t = g.final t := by
  unfold rename
  rw [(renameLoop_spec suf g g.states 0 _).2.1]
  split
  · rfl
  · rename_i h
    rw [final_addStateN]
    have : Graph.init.final t = none := rfl
    rw [this]
    cases hf : g.final t with
    | none => rfl
    | some w =>
      exfalso
      apply h
      exact ⟨⟨Nat.zero_le _, by have := hg.finals t w hf; omega⟩, by simp [hf]⟩

theorem alphabet_rename (suf : Sym) (g : Graph) (x : Sym) : x ∈ (rename suf g).alphabet ↔
    x ∈ Graph.init.alphabet ∨ ∃ s, ∃ a ∈ g.arcs s, x = renameSym suf a.inp ∨ x = renameSym suf a.out := by
  unfold rename
  rw [(renameLoop_spec suf g g.states 0 _).2.2 x, alphabet_addStateN]
  constructor
  · rintro (h | ⟨l, hl, a, ha, h⟩)
    · exact Or.inl h
    · obtain ⟨s, hs⟩ := (mem_flatten_states g a).1 (List.mem_flatten.2 ⟨l, hl, ha⟩)
      exact Or.inr ⟨s, a, hs, h⟩
  · rintro (h | ⟨s, a, ha, h⟩)
    · exact Or.inl h
    · obtain ⟨l, hl, ha'⟩ := List.mem_flatten.1 ((mem_flatten_states g a).2 ⟨s, ha⟩)
      exact Or.inr ⟨l, hl, a, ha', h⟩

/-! ## Inserting flags -/

/-- The loops that are added, with their sources. -/
def loops (flags : List Sym) (n : Nat) : List (Nat × Arc) :=
  (List.range n).flatMap fun s => flags.map fun x => (s, ⟨s, x, x, 0⟩)

theorem insertMissing_eq (g h : Graph) : insertMissing g h =
    (loops (missingFlags g h) g.states.length).foldl (fun g e => g.addTransition e.1 e.2) g := by
  unfold insertMissing loops
  rw [List.foldl_flatMap]
  congr 1
  funext c s
  rw [List.foldl_map]
  rfl

theorem mem_loops {flags : List Sym} {n : Nat} {e : Nat × Arc} :
    e ∈ loops flags n ↔ ∃ s x, s < n ∧ x ∈ flags ∧ e = (s, ⟨s, x, x, 0⟩) := by
  unfold loops
  simp only [List.mem_flatMap, List.mem_range, List.mem_map]
  constructor
  · rintro ⟨s, hs, x, hx, rfl⟩; exact ⟨s, x, hs, hx, rfl⟩
  · rintro ⟨s, x, hs, hx, rfl⟩; exact ⟨s, hs, x, hx, rfl⟩

theorem mem_arcs_insertMissing {g h : Graph} {s : Nat} {a : Arc} : a ∈ (insertMissing g h).arcs s ↔
    a ∈ g.arcs s ∨ (s < g.states.length ∧ ∃ x ∈ missingFlags g h, a = ⟨s, x, x, 0⟩) := by
  rw [insertMissing_eq, foldl_addTransition_arcs, List.mem_append]
  apply or_congr Iff.rfl
  simp only [List.mem_map, List.mem_filter, mem_loops, decide_eq_true_eq]
  constructor
  · rintro ⟨e, ⟨⟨t, x, ht, hx, rfl⟩, hs⟩, rfl⟩
    simp only at hs; subst hs
    exact ⟨ht, x, hx, rfl⟩
  · rintro ⟨hs, x, hx, rfl⟩
    exact ⟨(s, ⟨s, x, x, 0⟩), ⟨⟨s, x, hs, hx, rfl⟩, rfl⟩, rfl⟩

theorem final_insertMissing (g h : Graph) (s : Nat) : (insertMissing g h).final s = g.final s := by
  rw [insertMissing_eq, foldl_addTransition_final]

theorem alphabet_insertMissing {g h : Graph} (hg : 0 < g.states.length) (x : Sym) :
    x ∈ (insertMissing g h).alphabet ↔ x ∈ g.alphabet ∨ x ∈ missingFlags g h := by
  rw [insertMissing_eq, foldl_addTransition_alphabet]
  apply or_congr Iff.rfl
  constructor
  · rintro ⟨e, he, h⟩
    obtain ⟨s, y, hs, hy, rfl⟩ := mem_loops.1 he
    rcases h with h | h <;> simp only at h <;> rw [h] <;> exact hy
  · intro hx
    exact ⟨(0, ⟨0, x, x, 0⟩), mem_loops.2 ⟨0, x, hg, hx, rfl⟩, Or.inl rfl⟩

/-- The pair is that of one of the flags. -/
def isPairOf (flags : List Sym) (p : Sym × Sym) : Bool := decide (p.1 = p.2 ∧ p.1 ∈ flags)

theorem states_renameLoop (suf : Sym) (g : Graph) : ∀ (ls : List (List Arc)) (s : Nat) (c : Graph),
    c.states.length ≤ (renameLoop suf g s ls c).states.length
  | [], _, c => Nat.le_refl _
  | l :: ls, s, c => by
    simp only [renameLoop]
    refine Nat.le_trans ?_ (states_renameLoop suf g ls (s + 1) _)
    have h1 : c.states.length ≤ (renameState suf s l c).states.length := by
      rw [renameState_eq]; exact (foldl_addTransition_length_ge _ _).1
    refine Nat.le_trans h1 ?_
    unfold copyFinal; split
    · exact Nat.le_refl _
    · rw [length_setFinal]; omega

theorem wf_rename {suf : Sym} {g : Graph} (hg : WF g) : WF (rename suf g) := by
  have hl : g.states.length ≤ (rename suf g).states.length := by
    unfold rename
    refine Nat.le_trans ?_ (states_renameLoop suf g _ _ _)
    rw [length_addStateN]
    unfold maxState
    omega
  refine ⟨by have := hg.nonempty; omega, fun s a ha => ?_, fun s w hf => ?_⟩
  · rw [arcs_rename] at ha
    obtain ⟨b, hb, rfl⟩ := List.mem_map.1 ha
    have := hg.targets s b hb
    exact Nat.lt_of_lt_of_le this hl
  · rw [final_rename hg] at hf
    exact Nat.lt_of_lt_of_le (hg.finals s w hf) hl

theorem alphaOK_rename (suf : Sym) (g : Graph) : AlphaOK (rename suf g) := by
  refine ⟨fun s a ha => ?_, ?_, ?_, ?_⟩
  · rw [arcs_rename] at ha
    obtain ⟨b, hb, rfl⟩ := List.mem_map.1 ha
    exact ⟨(alphabet_rename suf g _).2 (Or.inr ⟨s, b, hb, Or.inl rfl⟩),
      (alphabet_rename suf g _).2 (Or.inr ⟨s, b, hb, Or.inr rfl⟩)⟩
  all_goals
    rw [alphabet_rename]; left; simp [Graph.init]

/-! ## What the transducers mean -/

theorem renameSym_eps (suf : Sym) : renameSym suf epsilon = epsilon := renameSym_other (by decide +kernel) suf

/-- Renaming keeps apart from the special symbols. -/
theorem renameSym_eq_plain {suf : Sym} (hs : '.' ∉ suf) {x y : Sym} (hy : Flags.isDiacritic y = false) :
    renameSym suf x = y ↔ x = y := by
  constructor
  · intro h
    have hx : Flags.isDiacritic x = false := by rw [← isDiacritic_renameSym hs, h, hy]
    rwa [renameSym_other hx] at h
  · rintro rfl; exact renameSym_other hy suf

theorem unknown_plain : Flags.isDiacritic unknown = false := by decide +kernel
theorem identity_plain : Flags.isDiacritic identity = false := by decide +kernel
theorem epsilon_plain : Flags.isDiacritic epsilon = false := by decide +kernel

theorem renameSym_unknown {suf : Sym} (hs : '.' ∉ suf) {x : Sym} : renameSym suf x = unknown ↔ x = unknown :=
  renameSym_eq_plain hs unknown_plain

theorem renameSym_identity {suf : Sym} (hs : '.' ∉ suf) {x : Sym} : renameSym suf x = identity ↔ x = identity :=
  renameSym_eq_plain hs identity_plain

theorem outside_rename {suf : Sym} (hs : '.' ∉ suf) {g : Graph} (ha : AlphaOK g) (hu : Used g) {x : Sym} :
    Outside (rename suf g).alphabet x ↔ Outside g.alphabet x := by
  unfold Outside
  refine and_congr_right fun ho => not_congr ?_
  obtain ⟨h1, h2, h3, h4, _⟩ := ho
  rw [alphabet_rename]
  constructor
  · rintro (h | ⟨s, a, haa, h⟩)
    · simp only [Graph.init, List.mem_cons, List.not_mem_nil, or_false] at h
      rcases h with h | h | h
      · exact absurd h h1
      · exact absurd h h2
      · exact absurd h h3
    · rcases h with h | h
      · rw [eq_comm, renameSym_eq_plain hs h4] at h; rw [← h]; exact (ha.arcs s a haa).1
      · rw [eq_comm, renameSym_eq_plain hs h4] at h; rw [← h]; exact (ha.arcs s a haa).2
  · intro hm
    rcases hu x hm with h | h | h | ⟨s, a, haa, h⟩
    · exact absurd h h1
    · exact absurd h h2
    · exact absurd h h3
    · refine Or.inr ⟨s, a, haa, ?_⟩
      rcases h with h | h
      · left; rw [← h, renameSym_other h4]
      · right; rw [← h, renameSym_other h4]

theorem stands_rename {suf : Sym} (hs : '.' ∉ suf) {g : Graph} (ha : AlphaOK g) (hu : Used g) {i o : Sym} {p' : Sym × Sym} :
    Stands (rename suf g).alphabet (renameSym suf i) (renameSym suf o) p' ↔
      ∃ p, Stands g.alphabet i o p ∧ p' = renamePair suf p := by
  have out := @outside_rename suf hs g ha hu
  constructor
  · intro h
    cases h with
    | itself h1 h2 h3 h4 =>
      simp only [ne_eq, renameSym_unknown hs, renameSym_identity hs] at h1 h2 h3 h4
      exact ⟨(i, o), .itself h1 h2 h3 h4, rfl⟩
    | @identity x h1 h2 h3 =>
      rw [renameSym_identity hs] at h1 h2
      refine ⟨(x, x), .identity h1 h2 (out.1 h3), ?_⟩
      simp only [renamePair, renameSym_other h3.1.2.2.2.1]
    | @input x h1 h2 h3 h4 =>
      simp only [ne_eq, renameSym_unknown hs, renameSym_identity hs] at h1 h2 h3
      refine ⟨(x, o), .input h1 h2 h3 (out.1 h4), ?_⟩
      simp only [renamePair, renameSym_other h4.1.2.2.2.1]
    | @output y h1 h2 h3 h4 =>
      simp only [ne_eq, renameSym_unknown hs, renameSym_identity hs] at h1 h2 h3
      refine ⟨(i, y), .output h1 h2 h3 (out.1 h4), ?_⟩
      simp only [renamePair, renameSym_other h4.1.2.2.2.1]
    | @both x y h1 h2 h3 h4 h5 =>
      rw [renameSym_unknown hs] at h1 h2
      refine ⟨(x, y), .both h1 h2 (out.1 h3) (out.1 h4) h5, ?_⟩
      simp only [renamePair, renameSym_other h3.1.2.2.2.1, renameSym_other h4.1.2.2.2.1]
  · rintro ⟨p, h, rfl⟩
    cases h with
    | itself h1 h2 h3 h4 =>
      exact .itself (fun h => h1 ((renameSym_unknown hs).1 h)) (fun h => h2 ((renameSym_identity hs).1 h))
        (fun h => h3 ((renameSym_unknown hs).1 h)) (fun h => h4 ((renameSym_identity hs).1 h))
    | @identity x h1 h2 h3 =>
      simp only [renamePair, renameSym_other h3.1.2.2.2.1]
      exact .identity ((renameSym_identity hs).2 h1) ((renameSym_identity hs).2 h2) (out.2 h3)
    | @input x h1 h2 h3 h4 =>
      simp only [renamePair, renameSym_other h4.1.2.2.2.1]
      exact .input ((renameSym_unknown hs).2 h1) (fun h => h2 ((renameSym_unknown hs).1 h))
        (fun h => h3 ((renameSym_identity hs).1 h)) (out.2 h4)
    | @output y h1 h2 h3 h4 =>
      simp only [renamePair, renameSym_other h4.1.2.2.2.1]
      exact .output ((renameSym_unknown hs).2 h1) (fun h => h2 ((renameSym_unknown hs).1 h))
        (fun h => h3 ((renameSym_identity hs).1 h)) (out.2 h4)
    | @both x y h1 h2 h3 h4 h5 =>
      simp only [renamePair, renameSym_other h3.1.2.2.2.1, renameSym_other h4.1.2.2.2.1]
      exact .both ((renameSym_unknown hs).2 h1) ((renameSym_unknown hs).2 h2) (out.2 h3) (out.2 h4) h5

theorem concretePath_rename {suf : Sym} (hs : '.' ∉ suf) {g : Graph} (ha : AlphaOK g) (hu : Used g) {s q : Nat}
    {l' : List (Sym × Sym)} {w : Int} : ConcretePath (rename suf g) s l' w q ↔
      ∃ l, ConcretePath g s l w q ∧ l' = l.map (renamePair suf) := by
  constructor
  · intro h
    induction h with
    | nil s => exact ⟨[], .nil s, rfl⟩
    | cons ha' hst _ ih =>
      obtain ⟨l, hl, rfl⟩ := ih
      rw [arcs_rename] at ha'
      obtain ⟨b, hb, rfl⟩ := List.mem_map.1 ha'
      obtain ⟨p, hp, rfl⟩ := (stands_rename hs ha hu).1 hst
      have := ConcretePath.cons hb hp hl
      exact ⟨p :: l, this, rfl⟩
  · rintro ⟨l, h, rfl⟩
    induction h with
    | nil s => exact .nil s
    | @cons s q a p l w haa hst _ ih =>
      have : renameArc suf a ∈ (rename suf g).arcs s := by
        rw [arcs_rename]; exact List.mem_map.2 ⟨a, haa, rfl⟩
      have := ConcretePath.cons this ((stands_rename hs ha hu).2 ⟨p, hst, rfl⟩) ih
      exact this

theorem strip_rename {suf : Sym} (hs : '.' ∉ suf) (l : List (Sym × Sym)) :
    Lexc.strip (l.map (renamePair suf)) = (Lexc.strip l).map (renamePair suf) := by
  unfold Lexc.strip
  rw [List.filter_map]
  congr 1
  apply List.filter_congr
  intro p _
  have : renamePair suf p = (epsilon, epsilon) ↔ p = (epsilon, epsilon) := by
    simp only [renamePair, Prod.mk.injEq, renameSym_eq_plain hs epsilon_plain, Prod.ext_iff]
  simp [Function.comp, this]

theorem means_rename {suf : Sym} (hs : '.' ∉ suf) {g : Graph} (hg : WF g) (ha : AlphaOK g) (hu : Used g)
    {l' : List (Sym × Sym)} {w : Int} : Means (rename suf g) l' w ↔ ∃ l, Means g l w ∧ l' = l.map (renamePair suf) := by
  constructor
  · rintro ⟨k, v, ⟨q, u, f, hp, hf, hv⟩, rfl, hw⟩
    obtain ⟨l, hl, rfl⟩ := (concretePath_rename hs ha hu).1 hp
    rw [final_rename hg] at hf
    exact ⟨Lexc.strip l, ⟨l, v, ⟨q, u, f, hl, hf, hv⟩, rfl, hw⟩, strip_rename hs l⟩
  · rintro ⟨l, ⟨k, v, ⟨q, u, f, hp, hf, hv⟩, rfl, hw⟩, rfl⟩
    exact ⟨k.map (renamePair suf), v, ⟨q, u, f, (concretePath_rename hs ha hu).2 ⟨k, hp, rfl⟩,
      by rwa [final_rename hg], hv⟩, strip_rename hs k, hw⟩

/-! ### Inserted flags -/

theorem outside_insertMissing {g h : Graph} (hg : WF g) {x : Sym} :
    Outside (insertMissing g h).alphabet x ↔ Outside g.alphabet x := by
  unfold Outside
  refine and_congr_right fun ho => not_congr ?_
  rw [alphabet_insertMissing hg.nonempty]
  constructor
  · rintro (h | h)
    · exact h
    · have := (List.mem_filter.1 h).2
      rw [ho.2.2.2.1] at this
      cases this
  · exact Or.inl

theorem stands_congr {al al' : List Sym} (h : ∀ x, Outside al x → Outside al' x) {i o : Sym} {p : Sym × Sym}
    (hs : Stands al i o p) : Stands al' i o p := by
  cases hs with
  | itself h1 h2 h3 h4 => exact .itself h1 h2 h3 h4
  | identity h1 h2 h3 => exact .identity h1 h2 (h _ h3)
  | input h1 h2 h3 h4 => exact .input h1 h2 h3 (h _ h4)
  | output h1 h2 h3 h4 => exact .output h1 h2 h3 (h _ h4)
  | both h1 h2 h3 h4 h5 => exact .both h1 h2 (h _ h3) (h _ h4) h5

theorem missing_not_in {g h : Graph} {x : Sym} (hx : x ∈ missingFlags g h) :
    x ∈ h.alphabet ∧ Flags.isDiacritic x = true ∧ x ∉ g.alphabet := by
  simpa [missingFlags] using hx

theorem stands_not_missing {g h : Graph} (ha : AlphaOK g) {s : Nat} {a : Arc} (haa : a ∈ g.arcs s) {p : Sym × Sym}
    (hst : Stands g.alphabet a.inp a.out p) : isPairOf (missingFlags g h) p = false := by
  unfold isPairOf
  rw [decide_eq_false_iff_not]
  rintro ⟨_, hm⟩
  obtain ⟨_, h2, h3⟩ := missing_not_in hm
  cases hst with
  | itself => exact h3 (ha.arcs s a haa).1
  | identity _ _ ho => rw [ho.1.2.2.2.1] at h2; cases h2
  | input _ _ _ ho => rw [ho.1.2.2.2.1] at h2; cases h2
  | output => exact h3 (ha.arcs s a haa).1
  | both _ _ ho => rw [ho.1.2.2.2.1] at h2; cases h2

theorem concretePath_insertMissing {g h : Graph} (hg : WF g) (ha : AlphaOK g) {s q : Nat} {l : List (Sym × Sym)} {w : Int}
    (hs : s < g.states.length) : ConcretePath (insertMissing g h) s l w q ↔
      ConcretePath g s (l.filter fun p => !isPairOf (missingFlags g h) p) w q := by
  have flagSelf : ∀ x ∈ missingFlags g h, x ≠ unknown ∧ x ≠ identity := by
    intro x hx
    have h2 := (missing_not_in hx).2.1
    constructor <;> rintro rfl
    · rw [unknown_plain] at h2; cases h2
    · rw [identity_plain] at h2; cases h2
  constructor
  · intro hp
    induction hp with
    | nil s => exact .nil s
    | @cons s q a p l w ha' hst _ ih =>
      rcases mem_arcs_insertMissing.1 ha' with h1 | ⟨_, x, hx, rfl⟩
      · have hst' := stands_congr (fun _ => (outside_insertMissing hg).1) hst
        rw [List.filter_cons, if_pos (by rw [stands_not_missing ha h1 hst']; rfl)]
        exact .cons h1 hst' (ih (hg.targets s a h1))
      · have hxx := flagSelf x hx
        have hp : p = (x, x) := by
          cases hst with
          | itself => rfl
          | identity h => exact absurd h hxx.2
          | input h => exact absurd h hxx.1
          | output h => exact absurd h hxx.1
          | both h => exact absurd h hxx.1
        subst hp
        have : isPairOf (missingFlags g h) (x, x) = true := by unfold isPairOf; simp [hx]
        simp only [List.filter_cons, this, Bool.not_true, Bool.false_eq_true, if_false, Int.zero_add]
        exact ih hs
  · induction l generalizing s w with
    | nil =>
      intro hp
      cases hp
      exact .nil _
    | cons p l ih =>
      intro hp
      cases hpp : isPairOf (missingFlags g h) p with
      | true =>
        simp only [List.filter_cons, hpp, Bool.not_true, Bool.false_eq_true, if_false] at hp
        have := of_decide_eq_true hpp
        obtain ⟨x, y⟩ := p
        obtain ⟨he, hm⟩ := this
        simp only at he hm; subst he
        have harc : (⟨s, x, x, 0⟩ : Arc) ∈ (insertMissing g h).arcs s :=
          mem_arcs_insertMissing.2 (Or.inr ⟨hs, x, hm, rfl⟩)
        have hxx := flagSelf x hm
        have := ConcretePath.cons harc (.itself hxx.1 hxx.2 hxx.1 hxx.2) (ih hs hp)
        simpa using this
      | false =>
        simp only [List.filter_cons, hpp, Bool.not_false, if_true] at hp
        cases hp with
        | cons haa hst hp' =>
          exact .cons (mem_arcs_insertMissing.2 (Or.inl haa)) (stands_congr (fun _ => (outside_insertMissing hg).2) hst)
            (ih (hg.targets _ _ haa) hp')

theorem strip_split : ∀ {r : List (Sym × Sym)} {x : Sym × Sym} {q : List (Sym × Sym)}, Lexc.strip r = x :: q →
    ∃ t r', r = t ++ x :: r' ∧ (∀ p ∈ t, p = (epsilon, epsilon)) ∧ x ≠ (epsilon, epsilon) ∧ Lexc.strip r' = q
  | [], x, q, h => by cases h
  | y :: r, x, q, h => by
    unfold Lexc.strip at h
    rw [List.filter_cons] at h
    by_cases hy : y = (epsilon, epsilon)
    · rw [if_neg (by simp [hy])] at h
      obtain ⟨t, r', rfl, ht, hx, hr⟩ := strip_split (r := r) (x := x) (q := q) h
      refine ⟨y :: t, r', rfl, fun p hp => ?_, hx, hr⟩
      rcases List.mem_cons.1 hp with rfl | hp
      · exact hy
      · exact ht p hp
    · rw [if_pos (by simp [hy])] at h
      simp only [List.cons.injEq] at h
      obtain ⟨rfl, h⟩ := h
      exact ⟨[], r, rfl, by simp, hy, h⟩

theorem strip_eps {t : List (Sym × Sym)} (h : ∀ p ∈ t, p = (epsilon, epsilon)) : Lexc.strip t = [] :=
  List.filter_eq_nil_iff.2 fun p hp => by simp [h p hp]

/-- Leaving out epsilon pairs and leaving out flags can be done in any order. -/
theorem interleave {M : Sym × Sym → Bool} (hM : ∀ p, M p = true → p ≠ (epsilon, epsilon)) : ∀ (l k : List (Sym × Sym)),
    Lexc.strip k = l.filter (fun p => !M p) → ∃ l', Lexc.strip l' = l ∧ l'.filter (fun p => !M p) = k
  | [], k, h => by
    refine ⟨k, h, List.filter_eq_self.2 fun p hp => ?_⟩
    have : p = (epsilon, epsilon) := by
      have := List.filter_eq_nil_iff.1 (show k.filter (fun p => decide (p ≠ (epsilon, epsilon))) = [] from h) p hp
      simpa using this
    cases hm : M p with
    | false => rfl
    | true => exact absurd this (hM p hm)
  | p :: l, k, h => by
    rw [List.filter_cons] at h
    cases hm : M p with
    | true =>
      rw [hm] at h
      obtain ⟨l', h1, h2⟩ := interleave hM l k h
      refine ⟨p :: l', ?_, ?_⟩
      · unfold Lexc.strip at h1 ⊢
        rw [List.filter_cons, if_pos (by simp [hM p hm]), h1]
      · rw [List.filter_cons, hm, h2]; rfl
    | false =>
      rw [hm] at h
      obtain ⟨t, r, rfl, ht, hx, hr⟩ := strip_split h
      obtain ⟨l', h1, h2⟩ := interleave hM l r hr
      refine ⟨t ++ p :: l', ?_, ?_⟩
      · have := strip_eps ht
        unfold Lexc.strip at this h1 ⊢
        rw [List.filter_append, this, List.filter_cons, if_pos (by simp [hx]), h1]; rfl
      · rw [List.filter_append, List.filter_eq_self.2 (fun q hq => ?_), List.filter_cons, hm, h2]
        · rfl
        · cases hmq : M q with
          | false => rfl
          | true => exact absurd (ht q hq) (hM q hmq)

theorem means_insertMissing {g h : Graph} (hg : WF g) (ha : AlphaOK g) {l : List (Sym × Sym)} {w : Int} :
    Means (insertMissing g h) l w ↔ Means g (l.filter fun p => !isPairOf (missingFlags g h) p) w := by
  have hM : ∀ p, isPairOf (missingFlags g h) p = true → p ≠ (epsilon, epsilon) := by
    rintro p hp rfl
    have := (missing_not_in (of_decide_eq_true hp).2).2.1
    rw [epsilon_plain] at this; cases this
  constructor
  · rintro ⟨k, v, ⟨q, u, f, hp, hf, hv⟩, rfl, hw⟩
    rw [concretePath_insertMissing hg ha hg.nonempty] at hp
    rw [final_insertMissing] at hf
    refine ⟨_, v, ⟨q, u, f, hp, hf, hv⟩, ?_, hw⟩
    unfold Lexc.strip
    rw [List.filter_filter, List.filter_filter]
    apply List.filter_congr
    intro p _
    exact Bool.and_comm _ _
  · rintro ⟨k, v, ⟨q, u, f, hp, hf, hv⟩, hk, hw⟩
    obtain ⟨l', rfl, rfl⟩ := interleave hM l k hk
    exact ⟨l', v, ⟨q, u, f, (concretePath_insertMissing hg ha hg.nonempty).2 hp, by rwa [final_insertMissing], hv⟩, rfl, hw⟩

/-! ### The transducers stay as the library makes them -/

theorem finals_renameLoop (suf : Sym) (g : Graph) : ∀ (ls : List (List Arc)) (s : Nat) (c : Graph), FinalMap c →
    FinalMap (renameLoop suf g s ls c)
  | [], _, _, h => h
  | l :: ls, s, c, h => by
    simp only [renameLoop]
    apply finals_renameLoop
    have h1 : FinalMap (renameState suf s l c) := by
      unfold renameState
      clear ls
      induction l generalizing c with
      | nil => exact h
      | cons a l ih => exact ih _ h
    unfold copyFinal; split
    · exact h1
    · exact FinalMap.put h1 s _

theorem finals_addStateN (g : Graph) (n : Nat) : (g.addStateN n).finals = g.finals := by
  rfl

theorem finals_foldl (es : List (Nat × Arc)) (g : Graph) :
    (es.foldl (fun g e => g.addTransition e.1 e.2) g).finals = g.finals := by
  induction es generalizing g with
  | nil => rfl
  | cons e es ih =>
    rw [List.foldl_cons, ih]
    rfl

theorem usual_rename {suf : Sym} (hs : '.' ∉ suf) {g : Graph} (hg : Usual g) : Usual (rename suf g) := by
  refine ⟨⟨wf_rename hg.good.wf, alphaOK_rename suf g, ?_⟩, ?_, ?_⟩
  · unfold rename
    apply finals_renameLoop
    unfold FinalMap
    rw [finals_addStateN]
    exact List.nodup_nil
  · intro s a ha
    rw [arcs_rename] at ha
    obtain ⟨b, hb, rfl⟩ := List.mem_map.1 ha
    simp only [renameArc, renameSym_identity hs]
    exact hg.paired s b hb
  · intro h
    rcases (alphabet_rename suf g []).1 h with h | ⟨s, a, ha, h⟩
    · exact absurd h (by decide)
    · have hnil : Flags.isDiacritic [] = false := by decide +kernel
      rcases h with h | h
      · rw [eq_comm, renameSym_eq_plain hs hnil] at h
        exact hg.nonempty (h ▸ (hg.good.alpha.arcs s a ha).1)
      · rw [eq_comm, renameSym_eq_plain hs hnil] at h
        exact hg.nonempty (h ▸ (hg.good.alpha.arcs s a ha).2)

theorem plain_rename {suf : Sym} (hs : '.' ∉ suf) {g : Graph} (ha : AlphaOK g) (hp : Plain g) : Plain (rename suf g) := by
  intro x hx hm
  have hd : Flags.isDiacritic x = false := by
    cases hd : Flags.isDiacritic x with
    | false => rfl
    | true => rw [(diacritic_plain hd).1] at hx; cases hx
  rcases (alphabet_rename suf g x).1 hm with h | ⟨s, a, haa, h⟩
  · simpa [Graph.init] using h
  · rcases h with h | h
    · rw [eq_comm, renameSym_eq_plain hs hd] at h
      exact hp x hx (h ▸ (ha.arcs s a haa).1)
    · rw [eq_comm, renameSym_eq_plain hs hd] at h
      exact hp x hx (h ▸ (ha.arcs s a haa).2)

theorem usual_insertMissing {g h : Graph} (hg : Usual g) : Usual (insertMissing g h) := by
  have hl : g.states.length ≤ (insertMissing g h).states.length := by
    rw [insertMissing_eq]; exact (foldl_addTransition_length_ge _ _).1
  have hne := hg.good.wf.nonempty
  have al := fun x => alphabet_insertMissing (g := g) (h := h) hne x
  refine ⟨⟨⟨by omega, ?_, ?_⟩, ⟨?_, (al _).2 (Or.inl hg.good.alpha.eps), (al _).2 (Or.inl hg.good.alpha.unk),
    (al _).2 (Or.inl hg.good.alpha.idn)⟩, ?_⟩, ?_, ?_⟩
  · intro s a ha
    rcases mem_arcs_insertMissing.1 ha with ha | ⟨hs, x, _, rfl⟩
    · exact Nat.lt_of_lt_of_le (hg.good.wf.targets s a ha) hl
    · exact Nat.lt_of_lt_of_le hs hl
  · intro s w hf
    rw [final_insertMissing] at hf
    exact Nat.lt_of_lt_of_le (hg.good.wf.finals s w hf) hl
  · intro s a ha
    rcases mem_arcs_insertMissing.1 ha with ha | ⟨hs, x, hx, rfl⟩
    · exact ⟨(al _).2 (Or.inl (hg.good.alpha.arcs s a ha).1), (al _).2 (Or.inl (hg.good.alpha.arcs s a ha).2)⟩
    · exact ⟨(al _).2 (Or.inr hx), (al _).2 (Or.inr hx)⟩
  · unfold FinalMap
    rw [insertMissing_eq, finals_foldl]
    exact hg.good.finals
  · intro s a ha
    rcases mem_arcs_insertMissing.1 ha with ha | ⟨hs, x, hx, rfl⟩
    · exact hg.paired s a ha
    · exact Iff.rfl
  · intro hm
    rcases (al _).1 hm with h | h
    · exact hg.nonempty h
    · have := (missing_not_in h).2.1
      exact absurd this (by decide +kernel)

theorem plain_insertMissing {g h : Graph} (hg : WF g) (hp : Plain g) : Plain (insertMissing g h) := by
  intro x hx hm
  rcases (alphabet_insertMissing hg.nonempty x).1 hm with h | h
  · exact hp x hx h
  · rw [(diacritic_plain (missing_not_in h).2.1).1] at hx; cases hx

end Hfst.FlagHarm
