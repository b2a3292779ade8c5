import Verif.Model.FlagElim
import Verif.Spec.FlagElim
import Verif.Props.Flags
import Mathlib.Data.List.Induction

/-!
# Property C80, the table: which flags a flag may follow
-/
namespace Hfst.Trans
open Hfst.Basic
open Hfst.Flags (FdOperator)

/-- The letter of an operator. -/
def opChar : FdOperator → Char
  | .P => 'P'
  | .N => 'N'
  | .R => 'R'
  | .D => 'D'
  | .C => 'C'
  | .U => 'U'

theorem readFlag_some {x : Sym} (h : Flags.isDiacritic x = true) :
    readFlag x = some (opChar (flagOp x), flagFeature x, flagValue x) := by
  obtain ⟨o, f, v, hw, rfl⟩ := (Flags.C01_isDiacritic_iff x).mp h
  obtain ⟨h1, h2, h3, _⟩ := Flags.C01_parts o f v hw
  unfold readFlag flagOp flagFeature flagValue
  rw [if_pos h, h1, h2, h3]
  dsimp only [Option.bind, List.head?, Option.getD]
  have ho := hw.1
  simp only [List.mem_cons, List.not_mem_nil, or_false] at ho
  rcases ho with rfl | rfl | rfl | rfl | rfl | rfl <;> rfl

theorem readFlag_none {x : Sym} (h : Flags.isDiacritic x = false) : readFlag x = none := by
  unfold readFlag
  rw [h]
  rfl

/-- A flag that sets or clears its feature. -/
def Sets (y : Sym) : Prop := flagOp y = .P ∨ flagOp y = .U ∨ flagOp y = .N ∨ flagOp y = .C

/-- What its feature is set to after the flag `y`. -/
def after (h : Held) (y : Sym) : Held := h.next (opChar (flagOp y)) (flagValue y)

/-- The flag `x` lets through. -/
def Ok (h : Held) (x : Sym) : Prop := Lets h (opChar (flagOp x)) (flagValue x)

theorem after_keeps {h : Held} {y : Sym} (hy : ¬ Sets y) : after h y = h := by
  unfold after Held.next
  cases e : flagOp y <;> simp [Sets, e] at hy <;> simp [opChar]

theorem after_sets {h h' : Held} {y : Sym} (hy : Sets y) : after h y = after h' y := by
  unfold after Held.next
  rcases hy with e | e | e | e <;> simp [opChar, e]

/-- The table says something only about flags that set the same feature. -/
theorem combination_sets {x y : Sym} (h : combination x y ≠ .none) : flagFeature x = flagFeature y ∧ Sets y := by
  unfold combination flagBuild at h
  by_cases e : flagFeature x = flagFeature y
  · refine ⟨e, ?_⟩
    rw [if_neg (not_not.mpr e)] at h
    unfold Sets
    cases hy : flagOp y <;> simp [hy] at h ⊢
  · exact absurd (if_pos e) h

/-- If `y` makes `x` fail, the table says so. -/
theorem combination_fail {x y : Sym} {h : Held} (hf : flagFeature x = flagFeature y) (hy : Sets y) (hn : ¬ Ok (after h y) x) :
    combination x y = .fail := by
  unfold combination flagBuild
  rw [if_neg (not_not.mpr hf)]
  unfold Ok after at hn
  generalize flagValue x = v at *
  generalize flagValue y = w at *
  unfold Sets at hy
  generalize flagOp x = o at *
  generalize flagOp y = o' at *
  by_cases hv : v = [] <;> by_cases hw : v = w <;> cases o <;> cases o' <;>
    simp_all [Lets, Held.next, opChar, eq_comm]

/-- The operators for which `N` is treated wrongly. -/
def NegativeWrong (x y : Sym) : Prop := flagOp y = .N ∧ flagValue x ≠ flagValue y ∧ (flagOp x = .U ∨ flagOp x = .D ∧ flagValue x ≠ [])

/-- If the table says that `x` fails after `y`, it does. -/
theorem fail_combination {x y : Sym} (h : combination x y = .fail) (hn : ¬ NegativeWrong x y) (h' : Held) : ¬ Ok (after h' y) x := by
  obtain ⟨hf, hy⟩ := combination_sets (x := x) (y := y) (by rw [h]; simp)
  unfold combination flagBuild at h
  rw [if_neg (not_not.mpr hf)] at h
  unfold Ok after
  unfold Sets at hy
  unfold NegativeWrong at hn
  generalize flagValue x = v at *
  generalize flagValue y = w at *
  generalize flagOp x = o at *
  generalize flagOp y = o' at *
  by_cases hv : v = [] <;> by_cases hw : v = w <;> cases o <;> cases o' <;>
    simp_all [Lets, Held.next, opChar, eq_comm]

/-- If the table says nothing about a flag that sets the feature, that flag cannot be where `x` would fail. -/
theorem none_combination {x y : Sym} (h : combination x y = .none) (hf : flagFeature x = flagFeature y) (hy : Sets y)
    (hx : flagOp x = .U ∨ flagOp x = .R ∨ flagOp x = .D) (hn : ¬ NegativeWrong x y) (h' : Held) (hb : ¬ Ok h' x) : ¬ Ok h' y := by
  unfold combination flagBuild at h
  rw [if_neg (not_not.mpr hf)] at h
  unfold Ok at hb ⊢
  unfold Sets at hy
  unfold NegativeWrong at hn
  generalize flagValue x = v at *
  generalize flagValue y = w at *
  generalize flagOp x = o at *
  generalize flagOp y = o' at *
  by_cases hv : v = [] <;> by_cases hw : v = w <;> cases o <;> cases o' <;>
    simp_all [Lets, opChar, eq_comm]

/-! ## Strings -/

/-- What the features are set to after a string. -/
def stepHeld (F : Sym → Held) (x : Sym) : Sym → Held :=
  match readFlag x with
  | none => F
  | some (o, f, v) => fun f' => if f' = f then (F f).next o v else F f'

def heldFrom (F : Sym → Held) (p : List Sym) : Sym → Held := p.foldl stepHeld F

theorem obeysFrom_iff {s : List Sym} {F : Sym → Held} : ObeysFrom F s ↔
    ∀ p x q, s = p ++ x :: q → Flags.isDiacritic x = true → Ok (heldFrom F p (flagFeature x)) x := by
  induction s generalizing F with
  | nil =>
    refine ⟨fun _ p x q h => ?_, fun _ => trivial⟩
    simp at h
  | cons a s ih =>
    by_cases ha : Flags.isDiacritic a = true
    · unfold ObeysFrom
      rw [readFlag_some ha]
      dsimp only
      have hstep : (fun f' => if f' = flagFeature a then (F (flagFeature a)).next (opChar (flagOp a)) (flagValue a) else F f') =
          stepHeld F a := by
        unfold stepHeld
        rw [readFlag_some ha]
      rw [hstep, ih]
      constructor
      · rintro ⟨h1, h2⟩ p x q e hx
        cases p with
        | nil =>
          simp only [List.nil_append, List.cons.injEq] at e
          obtain ⟨rfl, rfl⟩ := e
          exact h1
        | cons b p =>
          simp only [List.cons_append, List.cons.injEq] at e
          obtain ⟨rfl, e⟩ := e
          exact h2 p x q e hx
      · intro h
        exact ⟨h [] a s rfl ha, fun p x q e hx => h (a :: p) x q (by rw [e]; rfl) hx⟩
    · have ha' : Flags.isDiacritic a = false := by simpa using ha
      unfold ObeysFrom
      rw [readFlag_none ha']
      dsimp only
      have hstep : stepHeld F a = F := by
        unfold stepHeld
        rw [readFlag_none ha']
      rw [ih]
      constructor
      · intro h p x q e hx
        cases p with
        | nil =>
          simp only [List.nil_append, List.cons.injEq] at e
          obtain ⟨rfl, rfl⟩ := e
          exact absurd hx ha
        | cons b p =>
          simp only [List.cons_append, List.cons.injEq] at e
          obtain ⟨rfl, e⟩ := e
          have := h p x q e hx
          unfold heldFrom at this ⊢
          rw [List.foldl_cons, hstep]
          exact this
      · intro h p x q e hx
        have := h (a :: p) x q (by rw [e]; rfl) hx
        unfold heldFrom at this ⊢
        rw [List.foldl_cons, hstep] at this
        exact this

theorem obeys_iff {s : List Sym} : Obeys s ↔
    ∀ p x q, s = p ++ x :: q → Flags.isDiacritic x = true → Ok (heldFrom (fun _ => .nothing) p (flagFeature x)) x := obeysFrom_iff

/-- The symbol `y` sets the feature `f`. -/
def SetsFeature (f y : Sym) : Prop := Flags.isDiacritic y = true ∧ flagFeature y = f ∧ Sets y

theorem stepHeld_sets {F : Sym → Held} {f y : Sym} (h : SetsFeature f y) : stepHeld F y f = after (F f) y := by
  unfold stepHeld
  rw [readFlag_some h.1]
  dsimp only
  rw [h.2.1, if_pos rfl]
  rfl

theorem stepHeld_keeps {F : Sym → Held} {f y : Sym} (h : ¬ SetsFeature f y) : stepHeld F y f = F f := by
  unfold stepHeld
  by_cases hd : Flags.isDiacritic y = true
  · rw [readFlag_some hd]
    dsimp only
    split
    · rename_i e
      have : ¬ Sets y := fun hs => h ⟨hd, e.symm, hs⟩
      rw [e]
      exact after_keeps this
    · rfl
  · rw [readFlag_none (by simpa using hd)]

theorem heldFrom_snoc (F : Sym → Held) (p : List Sym) (y f : Sym) : heldFrom F (p ++ [y]) f = stepHeld (heldFrom F p) y f := by
  unfold heldFrom
  rw [List.foldl_append]
  rfl

theorem heldFrom_append (F : Sym → Held) (p m : List Sym) : heldFrom F (p ++ m) = heldFrom (heldFrom F p) m := by
  unfold heldFrom
  rw [List.foldl_append]

/-- The last flag in the string that sets a feature decides. -/
theorem heldFrom_last (F : Sym → Held) (p : List Sym) (f : Sym) :
    (heldFrom F p f = F f ∧ ∀ y ∈ p, ¬ SetsFeature f y) ∨
    ∃ p' y m, p = p' ++ y :: m ∧ SetsFeature f y ∧ (∀ z ∈ m, ¬ SetsFeature f z) ∧ heldFrom F p f = after .nothing y := by
  induction p using List.reverseRecOn with
  | nil => exact .inl ⟨rfl, by simp⟩
  | append_singleton p y ih =>
    rw [heldFrom_snoc]
    by_cases hy : SetsFeature f y
    · refine .inr ⟨p, y, [], rfl, hy, by simp, ?_⟩
      rw [stepHeld_sets hy]
      exact after_sets hy.2.2
    · rw [stepHeld_keeps hy]
      rcases ih with ⟨h1, h2⟩ | ⟨p', y', m, rfl, h1, h2, h3⟩
      · refine .inl ⟨h1, fun z hz => ?_⟩
        rcases List.mem_append.mp hz with hz | hz
        · exact h2 z hz
        · rw [List.mem_singleton.mp hz]; exact hy
      · refine .inr ⟨p', y', m ++ [y], by simp, h1, fun z hz => ?_, h3⟩
        rcases List.mem_append.mp hz with hz | hz
        · exact h2 z hz
        · rw [List.mem_singleton.mp hz]; exact hy

/-! ## Filters -/

/-- A string that the filter of a flag does not let through: the flag is there, after one that makes it fail, with none between
them that makes it succeed.  If it is `required`, it fails at the beginning, too. -/
def Blocked (fail succeed self : Sym → Prop) (required : Prop) (s : List Sym) : Prop :=
  ∃ p m x q, s = p ++ (m ++ x :: q) ∧ self x ∧ (∀ y ∈ m, ¬ succeed y) ∧ ((∃ p' y, p = p' ++ [y] ∧ fail y) ∨ required ∧ p = [])

/-- The string is blocked by the filter of the flag `x`. -/
def BlockedBy (flags : List Sym) (feature x : Sym) (s : List Sym) : Prop :=
  Blocked (· ∈ flagsWith .fail flags feature x) (· ∈ flagsWith .succeed flags feature x) (· = x) (flagOp x = .R) s

theorem mem_flagsWith {v : Verdict} {flags : List Sym} {feature x y : Sym} : y ∈ flagsWith v flags feature x ↔
    (feature = [] ∨ flagFeature x = feature) ∧ (flagOp x = .U ∨ flagOp x = .R ∨ flagOp x = .D) ∧ y ∈ flags ∧ combination x y = v := by
  unfold flagsWith
  split
  · rename_i h
    simp only [List.mem_filter, decide_eq_true_eq]
    tauto
  · rename_i h
    simp only [List.not_mem_nil, false_iff]
    tauto

theorem hasFilter_iff {flags : List Sym} {feature x : Sym} : hasFilter flags feature x = true ↔
    ∃ y, y ∈ flagsWith .fail flags feature x ∨ y ∈ flagsWith .succeed flags feature x := by
  unfold hasFilter
  rw [Bool.or_eq_true, Bool.not_eq_true', Bool.not_eq_true', List.isEmpty_eq_false_iff_exists_mem, List.isEmpty_eq_false_iff_exists_mem]
  constructor
  · rintro (⟨y, h⟩ | ⟨y, h⟩)
    · exact ⟨y, .inl h⟩
    · exact ⟨y, .inr h⟩
  · rintro ⟨y, h | h⟩
    · exact .inl ⟨y, h⟩
    · exact .inr ⟨y, h⟩

/-- A feature that is required is set somewhere. -/
def RequiredIsSet (flags : List Sym) : Prop :=
  ∀ x ∈ flags, flagOp x = .R → ∃ y ∈ flags, flagFeature y = flagFeature x ∧ Sets y

theorem required_combination {x y : Sym} (hx : flagOp x = .R) (hf : flagFeature x = flagFeature y) (hy : Sets y) :
    combination x y = .fail ∨ combination x y = .succeed := by
  unfold combination flagBuild
  rw [if_neg (not_not.mpr hf)]
  unfold Sets at hy
  generalize flagValue x = v at *
  generalize flagValue y = w at *
  generalize flagOp y = o' at *
  by_cases hv : v = [] <;> by_cases hw : v = w <;> cases o' <;> simp_all

/-- The filters let nothing through that the flags do not. -/
theorem filters_sound {flags : List Sym} {feature : Sym} (hdia : ∀ x ∈ flags, Flags.isDiacritic x = true)
    (hfeat : ∀ x ∈ flags, feature = [] ∨ flagFeature x = feature)
    (hR : RequiredIsSet flags) {s : List Sym} (hs : ∀ x ∈ s, Flags.isDiacritic x = true → x ∈ flags)
    (hacc : ∀ x ∈ flags, hasFilter flags feature x = true → ¬ BlockedBy flags feature x s) : Obeys s := by
  refine obeys_iff.mpr fun p x q e hx => ?_
  by_contra hn
  have hxf : x ∈ flags := hs x (by rw [e]; simp) hx
  have hop : flagOp x = .U ∨ flagOp x = .R ∨ flagOp x = .D := by
    unfold Ok Lets at hn
    cases ho : flagOp x <;> simp [ho, opChar] at hn ⊢
  have hsets : ∀ z, z ∈ flagsWith .succeed flags feature x → SetsFeature (flagFeature x) z := fun z hz => by
    have hm := mem_flagsWith.mp hz
    obtain ⟨h3, h4⟩ := combination_sets (x := x) (y := z) (by rw [hm.2.2.2]; simp)
    exact ⟨hdia z hm.2.2.1, h3.symm, h4⟩
  rcases heldFrom_last (fun _ => Held.nothing) p (flagFeature x) with ⟨h1, h2⟩ | ⟨p', y, m, rfl, h1, h2, h3⟩
  · rw [h1] at hn
    have hr : flagOp x = .R := by
      rcases hop with ho | ho | ho
      · simp [Ok, Lets, ho, opChar] at hn
      · exact ho
      · simp [Ok, Lets, ho, opChar] at hn
    obtain ⟨y, hy, hfy, hsy⟩ := hR x hxf hr
    have hfil : hasFilter flags feature x = true := hasFilter_iff.mpr ⟨y, by
      rw [mem_flagsWith, mem_flagsWith]
      rcases required_combination hr hfy.symm hsy with h | h
      · exact .inl ⟨hfeat x hxf, hop, hy, h⟩
      · exact .inr ⟨hfeat x hxf, hop, hy, h⟩⟩
    exact hacc x hxf hfil ⟨[], p, x, q, e, rfl, fun z hz hz' => h2 z hz (hsets z hz'), .inr ⟨hr, rfl⟩⟩
  · rw [h3] at hn
    have hyf : y ∈ flags := hs y (by rw [e]; simp) h1.1
    have hc := combination_fail h1.2.1.symm h1.2.2 hn
    have hm : y ∈ flagsWith .fail flags feature x := mem_flagsWith.mpr ⟨hfeat x hxf, hop, hyf, hc⟩
    exact hacc x hxf (hasFilter_iff.mpr ⟨y, .inl hm⟩) ⟨p' ++ [y], m, x, q, by rw [e]; simp, rfl,
      fun z hz hz' => h2 z hz (hsets z hz'), .inl ⟨p', y, rfl, hm⟩⟩

/-- No feature is set negatively that a flag compares with a value it may not have. -/
def NoNegative (flags : List Sym) : Prop :=
  ∀ x ∈ flags, ∀ y ∈ flags, flagFeature x = flagFeature y → ¬ NegativeWrong x y

/-- The filters let everything through that the flags do. -/
theorem filters_complete {flags : List Sym} {feature : Sym} (hdia : ∀ x ∈ flags, Flags.isDiacritic x = true)
    (hN : NoNegative flags) {s : List Sym} (hs : ∀ x ∈ s, Flags.isDiacritic x = true → x ∈ flags) (ho : Obeys s)
    {x : Sym} (hx : x ∈ flags) (hfil : hasFilter flags feature x = true) : ¬ BlockedBy flags feature x s := by
  rintro ⟨p, m, x', q, e, rfl, hm, hp⟩
  have hobey := obeys_iff.mp ho
  obtain ⟨y0, hy0⟩ := hasFilter_iff.mp hfil
  have hop : (feature = [] ∨ flagFeature x' = feature) ∧ (flagOp x' = .U ∨ flagOp x' = .R ∨ flagOp x' = .D) := by
    rcases hy0 with h | h
    · exact ⟨(mem_flagsWith.mp h).1, (mem_flagsWith.mp h).2.1⟩
    · exact ⟨(mem_flagsWith.mp h).1, (mem_flagsWith.mp h).2.1⟩
  have hstart : ¬ Ok (heldFrom (fun _ => .nothing) p (flagFeature x')) x' := by
    rcases hp with ⟨p', y, rfl, hy⟩ | ⟨hr, rfl⟩
    · have hmem := mem_flagsWith.mp hy
      obtain ⟨h3, h4⟩ := combination_sets (x := x') (y := y) (by rw [hmem.2.2.2]; simp)
      rw [heldFrom_snoc, stepHeld_sets ⟨hdia y hmem.2.2.1, h3.symm, h4⟩]
      exact fail_combination hmem.2.2.2 (hN x' hx y hmem.2.2.1 h3) _
    · simp [Ok, Lets, hr, opChar, heldFrom]
  have key : ∀ m' r, m = m' ++ r → ¬ Ok (heldFrom (fun _ => .nothing) (p ++ m') (flagFeature x')) x' := by
    intro m'
    induction m' using List.reverseRecOn with
    | nil => intro r _; rw [List.append_nil]; exact hstart
    | append_singleton m' z ih =>
      intro r er
      have ih := ih (z :: r) (by rw [er]; simp)
      rw [← List.append_assoc, heldFrom_snoc]
      by_cases hz : SetsFeature (flagFeature x') z
      · rw [stepHeld_sets hz]
        have hzf : z ∈ flags := hs z (by rw [e, er]; simp) hz.1
        have hns : combination x' z ≠ .succeed := fun h =>
          hm z (by rw [er]; simp) (mem_flagsWith.mpr ⟨hop.1, hop.2, hzf, h⟩)
        have hw := hN x' hx z hzf hz.2.1.symm
        cases hc : combination x' z with
        | succeed => exact absurd hc hns
        | fail => exact fail_combination hc hw _
        | none =>
          have hbad := none_combination hc hz.2.1.symm hz.2.2 hop.2 hw _ ih
          have hgood := hobey (p ++ m') z (r ++ x' :: q) (by rw [e, er]; simp) hz.1
          rw [hz.2.1] at hgood
          exact absurd hgood hbad
      · rw [stepHeld_keeps hz]
        exact ih
  exact key m [] (by simp) (hobey (p ++ m) x' q (by rw [e]; simp) (hdia x' hx))

end Hfst.Trans
