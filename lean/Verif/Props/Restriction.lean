import Verif.Props.MarkerErase
import Verif.Props.Replace

/-!
# C77: restriction and coercion
-/
namespace Hfst.Trans
open Hfst.Basic Hfst.Lexc

theorem marker_markers : Markers [marker] := by
  intro m hm
  rw [List.mem_singleton.mp hm]
  decide

theorem mem_marker {m : Sym} (h : m ∈ [marker]) : m = marker := List.mem_singleton.mp h

theorem over_avoids {al : List (Sym × Sym)} (h : Literal al) {m : Sym} (hs : isSpecial m = true) (he : m ≠ epsilon)
    {l : List (Sym × Sym)} (hl : Over al l) : Avoids m l := by
  intro p hp
  obtain ⟨_, _, _, h1, h2⟩ := h p (hl p hp)
  exact ⟨fun e => he (by rw [← e]; exact h1 (e ▸ hs)), fun e => he (by rw [← e]; exact h2 (e ▸ hs))⟩

theorem epsilon_den : Den (single epsilon epsilon) fun l w => l = [] ∧ 0 ≤ w := by
  refine ⟨single_usual (by decide) (by decide) Iff.rfl, single_plain (by decide) (by decide), fun l w => ?_⟩
  rw [means_iff]
  have : strip [(epsilon, epsilon)] = [] := by simp [strip]
  simp only [single_cost, this]
  constructor
  · rintro ⟨k, ⟨rfl, hw⟩, hf⟩
    cases hf
    exact ⟨rfl, hw⟩
  · rintro ⟨rfl, hw⟩
    exact ⟨[], ⟨rfl, hw⟩, .nil⟩

theorem init_den : Den Graph.init fun _ _ => False := by
  have ha : ∀ s, Graph.init.arcs s = [] := fun s => by cases s <;> simp [Graph.init, Graph.arcs]
  refine ⟨⟨⟨⟨by decide, ?_, ?_⟩, ⟨?_, by decide, by decide, by decide⟩, ?_⟩, ?_, by decide⟩, ?_, fun l w => ?_⟩
  · intro s a h
    rw [ha] at h
    cases h
  · intro s w h
    simp [Graph.init, Graph.final, mapGet] at h
  · intro s a h
    rw [ha] at h
    cases h
  · simp [FinalMap, Graph.init]
  · intro s a h
    rw [ha] at h
    cases h
  · intro x _ hx
    simpa [Graph.init] using hx
  · refine ⟨?_, fun h => h.elim⟩
    rintro ⟨l', w', ⟨q, v, f, _, hf, _⟩, _⟩
    simp [Graph.init, Graph.final, mapGet] at hf

/-- Splits at a marker are unique. -/
theorem split_unique {α : Type} {m : α} {a b a' b' : List α} (h : a ++ m :: b = a' ++ m :: b') (ha : m ∉ a) (ha' : m ∉ a') :
    a = a' ∧ b = b' := by
  induction a generalizing a' with
  | nil =>
    cases a' with
    | nil => exact ⟨rfl, by simpa using h⟩
    | cons x a' =>
      simp only [List.nil_append, List.cons_append, List.cons.injEq] at h
      exact absurd (by rw [h.1]; simp) ha'
  | cons y a ih =>
    cases a' with
    | nil =>
      simp only [List.nil_append, List.cons_append, List.cons.injEq] at h
      exact absurd (by rw [h.1]; simp) ha
    | cons x a' =>
      simp only [List.cons_append, List.cons.injEq] at h
      obtain ⟨h1, h2⟩ := ih h.2 (fun hm => ha (by simp [hm])) (fun hm => ha' (by simp [hm]))
      exact ⟨by rw [h.1, h1], h2⟩

/-- `x`, `c` and `y` with markers in between. -/
def mid (m : Sym) (x c y : List (Sym × Sym)) : List (Sym × Sym) := x ++ (m, m) :: (c ++ (m, m) :: y)

theorem avoids_mem {m : Sym} {l : List (Sym × Sym)} (h : Avoids m l) : (m, m) ∉ l := fun hm => (h _ hm).1 rfl

theorem mid_inj {m : Sym} {x c y x' c' y' : List (Sym × Sym)} (h : mid m x c y = mid m x' c' y') (hx : Avoids m x) (hc : Avoids m c)
    (hx' : Avoids m x') (hc' : Avoids m c') : x = x' ∧ c = c' ∧ y = y' := by
  obtain ⟨h1, h2⟩ := split_unique h (avoids_mem hx) (avoids_mem hx')
  obtain ⟨h3, h4⟩ := split_unique h2 (avoids_mem hc) (avoids_mem hc')
  exact ⟨h1, h3, h4⟩

theorem eraseMark_mid {m : Sym} {x c y : List (Sym × Sym)} (hx : Avoids m x) (hc : Avoids m c) (hy : Avoids m y) (sx : strip x = x)
    (sc : strip c = c) (sy : strip y = y) : eraseMark m (mid m x c y) = x ++ c ++ y := by
  have e : mid m x c y = x ++ [(m, m)] ++ c ++ [(m, m)] ++ y := by simp [mid]
  rw [e, eraseMark_append, eraseMark_append, eraseMark_append, eraseMark_append, eraseMark_mark, eraseMark_id hx sx, eraseMark_id hc sc,
    eraseMark_id hy sy]
  simp

section
variable {B : Backend} (hB : B.Ok)
include hB

theorem concatenateAll_den {ms : List Sym} (hms : Markers ms) {g : Graph} {L : List (Sym × Sym) → Int → Prop} (d : DenM ms g L)
    {hs : List Graph} {Ls : List (List (Sym × Sym) → Int → Prop)} (ds : List.Forall₂ (DenM ms) hs Ls) :
    ∃ r, concatenateAll B g hs = .ok r ∧ DenM ms r (Ls.foldl Cat L) := by
  induction ds generalizing g L with
  | nil => exact ⟨g, rfl, d⟩
  | cons dh _ ih =>
    obtain ⟨r, e, dr⟩ := DenM.concat hB hms d dh
    obtain ⟨r', e', dr'⟩ := ih dr
    refine ⟨r', ?_, dr'⟩
    unfold concatenateAll
    rw [e]
    exact e'

/-- The sequences with two markers and given parts. -/
theorem middle_den {ms : List Sym} (hms : Markers ms) {m : Sym} (hm : m ∈ ms) {x₁ x₂ c y₁ y₂ : Graph}
    {X₁ X₂ C Y₁ Y₂ : List (Sym × Sym) → Int → Prop} (dx₁ : DenM ms x₁ X₁) (dx₂ : DenM ms x₂ X₂) (dc : DenM ms c C)
    (dy₁ : DenM ms y₁ Y₁) (dy₂ : DenM ms y₂ Y₂) :
    ∃ r L, concatenateAll B (single epsilon epsilon) [x₁, x₂, single m m, c, single m m, y₁, y₂] = .ok r ∧ DenM ms r L ∧
      ∀ l, (∃ v, L l v) ↔ ∃ a b d e f, l = mid m (a ++ b) d (e ++ f) ∧ (∃ v, X₁ a v) ∧ (∃ v, X₂ b v) ∧ (∃ v, C d v) ∧ (∃ v, Y₁ e v) ∧
        ∃ v, Y₂ f v := by
  have dm := marker_den hms hm
  obtain ⟨r, e, dr⟩ := concatenateAll_den hB hms (epsilon_den.mark hms)
    (.cons dx₁ (.cons dx₂ (.cons dm (.cons dc (.cons dm (.cons dy₁ (.cons dy₂ .nil)))))))
  refine ⟨r, _, e, dr, fun l => ?_⟩
  simp only [List.foldl_cons, List.foldl_nil, cat_any]
  constructor
  · rintro ⟨_, f, rfl, ⟨_, e, rfl, ⟨_, m2, rfl, ⟨_, d, rfl, ⟨_, m1, rfl, ⟨_, b, rfl, ⟨_, a, rfl, ⟨_, ⟨rfl, _⟩, _⟩, ha⟩, hb⟩,
      ⟨_, _, rfl⟩⟩, hd⟩, ⟨_, _, rfl⟩⟩, he⟩, hf⟩
    exact ⟨a, b, d, e, f, by simp [mid], ha, hb, hd, he, hf⟩
  · rintro ⟨a, b, d, e, f, rfl, ha, hb, hd, he, hf⟩
    refine ⟨a ++ b ++ [(m, m)] ++ d ++ [(m, m)] ++ e, f, by simp [mid], ⟨a ++ b ++ [(m, m)] ++ d ++ [(m, m)], e, rfl,
      ⟨a ++ b ++ [(m, m)] ++ d, [(m, m)], rfl, ⟨a ++ b ++ [(m, m)], d, rfl, ⟨a ++ b, [(m, m)], rfl, ⟨a, b, rfl, ⟨[], a, rfl,
      ⟨0, ⟨rfl, Int.le_refl _⟩, ?_⟩, ha⟩, hb⟩, ⟨0, Int.le_refl _, rfl⟩⟩, hd⟩, ⟨0, Int.le_refl _, rfl⟩⟩, he⟩, hf⟩
    intro x _ p hp
    cases hp

theorem center_den {ms : List Sym} (hms : Markers ms) {m : Sym} (hm : m ∈ ms) {x c y : Graph}
    {X C Y : List (Sym × Sym) → Int → Prop} (dx : DenM ms x X) (dc : DenM ms c C) (dy : DenM ms y Y) :
    ∃ r L, concatenateAll B (single epsilon epsilon) [x, single m m, c, single m m, y] = .ok r ∧ DenM ms r L ∧
      ∀ l, (∃ v, L l v) ↔ ∃ a d f, l = mid m a d f ∧ (∃ v, X a v) ∧ (∃ v, C d v) ∧ ∃ v, Y f v := by
  have dm := marker_den hms hm
  obtain ⟨r, e, dr⟩ := concatenateAll_den hB hms (epsilon_den.mark hms)
    (.cons dx (.cons dm (.cons dc (.cons dm (.cons dy .nil)))))
  refine ⟨r, _, e, dr, fun l => ?_⟩
  simp only [List.foldl_cons, List.foldl_nil, cat_any]
  constructor
  · rintro ⟨_, f, rfl, ⟨_, m2, rfl, ⟨_, d, rfl, ⟨_, m1, rfl, ⟨_, a, rfl, ⟨_, ⟨rfl, _⟩, _⟩, ha⟩, ⟨_, _, rfl⟩⟩, hd⟩, ⟨_, _, rfl⟩⟩, hf⟩
    exact ⟨a, d, f, by simp [mid], ha, hd, hf⟩
  · rintro ⟨a, d, f, rfl, ha, hd, hf⟩
    refine ⟨a ++ [(m, m)] ++ d ++ [(m, m)], f, by simp [mid], ⟨a ++ [(m, m)] ++ d, [(m, m)], rfl, ⟨a ++ [(m, m)], d, rfl,
      ⟨a, [(m, m)], rfl, ⟨[], a, rfl, ⟨0, ⟨rfl, Int.le_refl _⟩, ?_⟩, ha⟩, ⟨0, Int.le_refl _, rfl⟩⟩, hd⟩, ⟨0, Int.le_refl _, rfl⟩⟩, hf⟩
    intro x _ p hp
    cases hp

/-- A set of sequences over the alphabet without those that come from `A` but not from `C`. -/
theorem without_den {al : List (Sym × Sym)} (la : Literal al) {universal a c : Graph} {A C : List (Sym × Sym) → Int → Prop}
    (du : Den universal fun l w => Over al l ∧ 0 ≤ w) (da : DenM [marker] a A) (dc : DenM [marker] c C) :
    ∃ r, without B universal a c = .ok r ∧ Den r fun l w => Over al l ∧ 0 ≤ w ∧
      ¬ ∃ l₀, (∃ v, A l₀ v) ∧ (¬ ∃ v, C l₀ v) ∧ l = eraseMark marker l₀ := by
  obtain ⟨r₁, e1, d1⟩ := DenM.subtract hB marker_markers da dc
  obtain ⟨r₂, e2, hn, d2⟩ := DenM.erase marker_markers (List.mem_singleton_self marker) d1
  have dd : Den r₂ (Means r₂) := Den.self d2.usual fun x hx hm => by
    rcases d2.plain x hx hm with h | h | h | h
    · exact .inl h
    · exact .inr (.inl h)
    · exact .inr (.inr h)
    · exact absurd (mem_marker h ▸ hm) hn
  obtain ⟨r, e3, d3⟩ := du.subtract hB dd
  refine ⟨r, ?_, d3.congr fun l w => ?_⟩
  · unfold without
    rw [e1]
    show (r₁.substitute marker epsilon true true).bind _ = _
    rw [e2]
    exact e3
  · rw [and_assoc]
    refine and_congr_right fun ho => and_congr_right fun _ => not_congr ?_
    have hav : Avoids marker l := over_avoids la (by decide) (by decide) ho
    constructor
    · rintro ⟨v, hv⟩
      obtain ⟨l₀, ⟨h1, h2⟩, e⟩ := (d2.means l v).mp ⟨hv, fun m hm _ => mem_marker hm ▸ hav⟩
      exact ⟨l₀, ⟨v, h1⟩, h2, e⟩
    · rintro ⟨l₀, ⟨v, h1⟩, h2, e⟩
      exact ⟨v, ((d2.means l v).mpr ⟨l₀, ⟨h1, h2⟩, e⟩).1⟩

/-- The sequences with one of the contexts. -/
theorem contextUnion_den {universal tmp : Graph} {U T : List (Sym × Sym) → Int → Prop} (du : Den universal U) (dt : Den tmp T)
    {contexts : List (Graph × Graph)} (hc : ∀ c ∈ contexts, (Usual c.1 ∧ Plain c.1) ∧ Usual c.2 ∧ Plain c.2) {g : Graph}
    {L : List (Sym × Sym) → Int → Prop} (dg : DenM [marker] g L) :
    ∃ r L', contextUnion B universal (single marker marker) tmp contexts g = .ok r ∧ DenM [marker] r L' ∧
      ∀ l, (∃ v, L' l v) ↔ (∃ v, L l v) ∨ ∃ c ∈ contexts, ∃ a b d e f, l = mid marker (a ++ b) d (e ++ f) ∧ Avoids marker (a ++ b) ∧
        Avoids marker d ∧ Avoids marker (e ++ f) ∧ (∃ v, U a v) ∧ (∃ v, Means c.1 b v) ∧ (∃ v, T d v) ∧ (∃ v, Means c.2 e v) ∧
        ∃ v, U f v := by
  induction contexts generalizing g L with
  | nil => exact ⟨g, L, rfl, dg, fun l => by simp⟩
  | cons c cs ih =>
    obtain ⟨⟨u1, p1⟩, u2, p2⟩ := hc c (by simp)
    have hms := marker_markers
    obtain ⟨r₁, L₁, e1, d1, h1⟩ := middle_den hB hms (List.mem_singleton_self marker) (du.mark hms) ((Den.self u1 p1).mark hms)
      (dt.mark hms) ((Den.self u2 p2).mark hms) (du.mark hms)
    obtain ⟨r₂, e2, d2⟩ := DenM.disjunct hB hms dg d1
    obtain ⟨r, L', e3, d3, h3⟩ := ih (fun c hc' => hc c (by simp [hc'])) d2
    refine ⟨r, L', ?_, d3, fun l => ?_⟩
    · unfold contextUnion
      rw [e1]
      show (disjunct B g r₁).bind _ = _
      rw [e2]
      exact e3
    · rw [h3, exists_or, h1]
      simp only [List.mem_singleton, forall_eq]
      have hx : ∀ {P : List (Sym × Sym) → Int → Prop} {a : List (Sym × Sym)},
          (∃ v, P a v ∧ Avoids marker a) ↔ (∃ v, P a v) ∧ Avoids marker a := fun {P a} => exists_and_right
      simp only [exists_and_right, avoids_append, List.mem_cons, exists_eq_or_imp, or_assoc]
      refine or_congr_right (or_congr ?_ Iff.rfl)
      constructor
      · rintro ⟨a, b, d, e, f, rfl, ⟨ha, ha'⟩, ⟨hb, hb'⟩, ⟨hd, hd'⟩, ⟨he, he'⟩, hf, hf'⟩
        exact ⟨a, b, d, e, f, rfl, ⟨ha', hb'⟩, hd', ⟨he', hf'⟩, ha, hb, hd, he, hf⟩
      · rintro ⟨a, b, d, e, f, rfl, ⟨ha', hb'⟩, hd', ⟨he', hf'⟩, ha, hb, hd, he, hf⟩
        exact ⟨a, b, d, e, f, rfl, ⟨ha, ha'⟩, ⟨hb, hb'⟩, ⟨hd, hd'⟩, ⟨he, he'⟩, hf, hf'⟩

end

/-! ## The candidates -/

theorem joined_same_left {s : List Sym} {b j : List (Sym × Sym)} (h : Joined (same s) b j) (hs : epsilon ∉ s) : j = b := by
  generalize ha : same s = a at h
  induction h generalizing s with
  | nil => rfl
  | both _ _ ih =>
    cases s with
    | nil => cases ha
    | cons x s =>
      simp only [same, List.map_cons, List.cons.injEq, Prod.mk.injEq] at ha
      obtain ⟨⟨rfl, rfl⟩, ha⟩ := ha
      rw [ih (s := s) (fun hm => hs (by simp [hm])) ha]
  | left _ _ =>
    cases s with
    | nil => cases ha
    | cons x s =>
      simp only [same, List.map_cons, List.cons.injEq, Prod.mk.injEq] at ha
      exact absurd (by rw [ha.1.2]; simp) hs
  | right _ ih => rw [ih hs ha]

theorem joined_same_right {s : List Sym} {a j : List (Sym × Sym)} (h : Joined a (same s) j) (hs : epsilon ∉ s) : j = a := by
  generalize hb : same s = b at h
  induction h generalizing s with
  | nil => rfl
  | both _ _ ih =>
    cases s with
    | nil => cases hb
    | cons x s =>
      simp only [same, List.map_cons, List.cons.injEq, Prod.mk.injEq] at hb
      obtain ⟨⟨rfl, rfl⟩, hb⟩ := hb
      rw [ih (s := s) (fun hm => hs (by simp [hm])) hb]
  | left _ ih => rw [ih hs hb]
  | right _ _ =>
    cases s with
    | nil => cases hb
    | cons x s =>
      simp only [same, List.map_cons, List.cons.injEq, Prod.mk.injEq] at hb
      exact absurd (by rw [hb.1.1]; simp) hs

theorem epsilon_ins (l : List (Sym × Sym)) : epsilon ∉ ins l := fun h => (mem_ins.mp h).1 rfl
theorem epsilon_outs (l : List (Sym × Sym)) : epsilon ∉ outs l := fun h => (mem_outs.mp h).1 rfl

theorem joined_ins {a b j : List (Sym × Sym)} (h : Joined a b j) : outs a = ins b := by
  induction h with
  | nil => rfl
  | both hy _ ih =>
    simp only [outs, ins, List.map_cons] at ih ⊢
    rw [List.filter_cons_of_pos (by simpa using hy), List.filter_cons_of_pos (by simpa using hy), ih]
  | left _ ih =>
    simp only [outs, ins, List.map_cons] at ih ⊢
    rw [List.filter_cons_of_neg (by simp), ih]
  | right _ ih =>
    simp only [outs, ins, List.map_cons] at ih ⊢
    rw [List.filter_cons_of_neg (by simp), ih]

/-- What `restriction` does with the mapping for the contexts. -/
def candidates (B : Backend) (d : Direction) (universal mapping : Graph) : Outcome Graph :=
  match d with
  | .none => .ok universal
  | .surface => compose B (inputProject B mapping) universal
  | .deep => compose B universal (outputProject B mapping)

theorem candidates_den {B : Backend} (hB : B.Ok) {al : List (Sym × Sym)} (la : Literal al) {universal mapping : Graph}
    (du : Den universal fun l w => Over al l ∧ 0 ≤ w) (um : Usual mapping) (pm : Plain mapping) (d : Direction) :
    ∃ r, candidates B d universal mapping = .ok r ∧ Den r (Means r) ∧
      ∀ c, (∃ v, Means r c v) ↔ Over al c ∧ Candidate d mapping c := by
  cases d with
  | none =>
    refine ⟨universal, rfl, .self du.usual du.plain, fun c => ?_⟩
    simp only [du.means, over_any, Candidate, and_true]
  | surface =>
    obtain ⟨h1, h2, _, h4⟩ := C73_inputProject hB mapping um
    have dp : Den (inputProject B mapping) (Means (inputProject B mapping)) := .self h1 (pm.mono fun x hx => (h2 x).mp hx)
    obtain ⟨r, e, ur, hal, hs, hc⟩ := compose_means hB h1 du.usual (dp.specials du)
    refine ⟨r, e, .self ur (Plain.union dp.plain du.plain hal), fun c => ?_⟩
    have hk : KeepsInput (inputProject B mapping) := by
      intro l w hl x y hxy _
      obtain ⟨l', _, rfl⟩ := (h4 l w).mp hl
      obtain ⟨z, _, e⟩ := List.mem_map.mp hxy
      cases e
      rfl
    constructor
    · rintro ⟨v, hv⟩
      obtain ⟨a, b, j, w₁, w₂, ha, hb, hj, rfl, _⟩ := hs c v hv
      obtain ⟨u, hu, rfl⟩ := (h4 a w₁).mp ha
      have hj' : Joined (same (ins u)) b j := hj
      have := joined_same_left hj' (epsilon_ins u)
      subst this
      have hb' := ((du.means _ _).mp hb).1
      rw [strip_literal la hb']
      refine ⟨hb', u, w₁, hu, ?_⟩
      rw [← joined_ins hj', outs_same (epsilon_ins u)]
    · rintro ⟨ho, u, v, hu, e⟩
      have e' : outs (same (ins u)) = ins c := by rw [outs_same (epsilon_ins u), e]
      obtain ⟨j, hj, hm⟩ := hc (.inl hk) (same (ins u)) c v 0 ((h4 _ _).mpr ⟨u, hu, rfl⟩) ((du.means _ _).mpr ⟨ho, Int.le_refl _⟩) e'
      rw [joined_same_left hj (epsilon_ins u), strip_literal la ho] at hm
      exact ⟨_, hm⟩
  | deep =>
    obtain ⟨h1, h2, _, h4⟩ := C73_outputProject hB mapping um
    have dp : Den (outputProject B mapping) (Means (outputProject B mapping)) := .self h1 (pm.mono fun x hx => (h2 x).mp hx)
    obtain ⟨r, e, ur, hal, hs, hc⟩ := compose_means hB du.usual h1 (du.specials dp)
    refine ⟨r, e, .self ur (Plain.union du.plain dp.plain hal), fun c => ?_⟩
    have hk : KeepsOutput (outputProject B mapping) := by
      intro l w hl x y hxy _
      obtain ⟨l', _, rfl⟩ := (h4 l w).mp hl
      obtain ⟨z, _, e⟩ := List.mem_map.mp hxy
      cases e
      rfl
    constructor
    · rintro ⟨v, hv⟩
      obtain ⟨a, b, j, w₁, w₂, ha, hb, hj, rfl, _⟩ := hs c v hv
      obtain ⟨u, hu, rfl⟩ := (h4 b w₂).mp hb
      have hj' : Joined a (same (outs u)) j := hj
      have := joined_same_right hj' (epsilon_outs u)
      subst this
      have ha' := ((du.means _ _).mp ha).1
      rw [strip_literal la ha']
      refine ⟨ha', u, w₂, hu, ?_⟩
      rw [joined_ins hj', ins_same (epsilon_outs u)]
    · rintro ⟨ho, u, v, hu, e⟩
      have e' : outs c = ins (same (outs u)) := by rw [ins_same (epsilon_outs u), e]
      obtain ⟨j, hj, hm⟩ := hc (.inr hk) c (same (outs u)) 0 v ((du.means _ _).mpr ⟨ho, Int.le_refl _⟩) ((h4 _ _).mpr ⟨u, hu, rfl⟩) e'
      rw [joined_same_right hj (epsilon_outs u), strip_literal la ho] at hm
      exact ⟨_, hm⟩

theorem restriction_eq (B : Backend) (contexts : List (Graph × Graph)) (mapping : Graph) (al : List (Sym × Sym)) (twol : TwolType)
    (d : Direction) (hne : contexts ≠ []) : restriction B contexts mapping al twol d =
    (pairSet al true).bind fun universal =>
    (concatenateAll B (single epsilon epsilon) [universal, single marker marker, mapping, single marker marker, universal]).bind fun l1 =>
    (candidates B d universal mapping).bind fun tmp =>
    (contextUnion B universal (single marker marker) tmp contexts Graph.init).bind fun l2 =>
    (match twol with
      | .right => without B universal l1 l2
      | .left => without B universal l2 l1
      | .both =>
        (without B universal l1 l2).bind fun a => (without B universal l2 l1).bind fun b => intersect B a b).bind fun r =>
      .ok (r, match d with
        | .none => mapping
        | .surface => tmp
        | .deep => outputProject B mapping) := by
  unfold restriction
  rw [if_neg (by simpa using hne)]
  cases d <;> rfl

/-- C77: over an alphabet of symbol pairs, `restriction`, `coercion` and `restriction_and_coercion` and their surface and deep
versions accept exactly the sequences where the mapping only occurs in one of the contexts, where everything in one of the contexts
(that agrees with the mapping on one side) belongs to the mapping, and where both hold. -/
theorem C77_rules {B : Backend} (hB : B.Ok) (contexts : List (Graph × Graph)) (hne : contexts ≠ [])
    (hc : ∀ c ∈ contexts, (Usual c.1 ∧ Plain c.1) ∧ Usual c.2 ∧ Plain c.2) (mapping : Graph) (um : Usual mapping) (pm : Plain mapping)
    (al : List (Sym × Sym)) (la : Literal al) (twol : TwolType) (d : Direction) :
    ∃ r m', restriction B contexts mapping al twol d = .ok (r, m') ∧ Usual r ∧ Plain r ∧ ∀ l w, Means r l w ↔ Over al l ∧ 0 ≤ w ∧
      match twol with
      | .right => OnlyInContext contexts mapping l
      | .left => AlwaysInContext d contexts mapping l
      | .both => OnlyInContext contexts mapping l ∧ AlwaysInContext d contexts mapping l := by
  have hms := marker_markers
  have hmm := List.mem_singleton_self marker
  obtain ⟨u, e1, du⟩ := pairSet_cyclic la
  obtain ⟨l1, L1, e2, d1, h1⟩ := center_den hB hms hmm (du.mark hms) ((Den.self um pm).mark hms) (du.mark hms)
  obtain ⟨tmp, e3, dt, ht⟩ := candidates_den hB la du um pm d
  obtain ⟨l2, L2, e4, d2, h2⟩ := contextUnion_den hB du dt hc (init_den.mark hms)
  obtain ⟨a, e5, da⟩ := without_den hB la du d1 d2
  obtain ⟨b, e6, db⟩ := without_den hB la du d2 d1
  -- the two kinds of sequences with markers
  have hov : ∀ {x}, Over al x → Avoids marker x ∧ strip x = x := fun h => ⟨over_avoids la (by decide) (by decide) h, strip_literal la h⟩
  have s1 : ∀ l, (∃ v, L1 l v) ↔ ∃ x c y, l = mid marker x c y ∧ Over al x ∧ ((∃ v, Means mapping c v) ∧ Avoids marker c) ∧
      Over al y := by
    intro l
    rw [h1]
    simp only [List.mem_singleton, forall_eq, exists_and_right, over_any]
    constructor
    · rintro ⟨x, c, y, rfl, ⟨hx, _⟩, hc', hy, _⟩
      exact ⟨x, c, y, rfl, hx, hc', hy⟩
    · rintro ⟨x, c, y, rfl, hx, hc', hy⟩
      exact ⟨x, c, y, rfl, ⟨hx, (hov hx).1⟩, hc', hy, (hov hy).1⟩
  have s2 : ∀ l, (∃ v, L2 l v) ↔ ∃ k ∈ contexts, ∃ x c y, l = mid marker x c y ∧ Avoids marker x ∧ Avoids marker y ∧
      (∃ p q, x = p ++ q ∧ Over al p ∧ ∃ v, Means k.1 q v) ∧ (Over al c ∧ Candidate d mapping c) ∧
      ∃ p q, y = p ++ q ∧ (∃ v, Means k.2 p v) ∧ Over al q := by
    intro l
    rw [h2]
    simp only [false_and, exists_false, false_or, over_any, ht]
    refine exists_congr fun k => and_congr_right fun _ => ?_
    constructor
    · rintro ⟨p, q, c, p', q', rfl, h3, _, h4, hp, hq, hc', hp', hq'⟩
      exact ⟨_, c, _, rfl, h3, h4, ⟨p, q, rfl, hp, hq⟩, hc', p', q', rfl, hp', hq'⟩
    · rintro ⟨_, c, _, rfl, h3, h4, ⟨p, q, rfl, hp, hq⟩, hc', p', q', rfl, hp', hq'⟩
      exact ⟨p, q, c, p', q', rfl, h3, (hov hc'.1).1, h4, hp, hq, hc', hp', hq'⟩
  -- the restriction
  have ra : ∀ l, Over al l → ((¬ ∃ l₀, (∃ v, L1 l₀ v) ∧ (¬ ∃ v, L2 l₀ v) ∧ l = eraseMark marker l₀) ↔ OnlyInContext contexts mapping l) := by
    intro l ho
    constructor
    · intro hnot x c y e hm
      subst e
      obtain ⟨hxc, hy⟩ := over_append.mp ho
      obtain ⟨hx, hcc⟩ := over_append.mp hxc
      by_contra hin
      refine hnot ⟨mid marker x c y, (s1 _).mpr ⟨x, c, y, rfl, hx, ⟨hm, (hov hcc).1⟩, hy⟩, ?_,
        (eraseMark_mid (hov hx).1 (hov hcc).1 (hov hy).1 (hov hx).2 (hov hcc).2 (hov hy).2).symm⟩
      rw [s2]
      rintro ⟨k, hk, x', c', y', e', hx', _, ⟨p, q, e1, _, hq⟩, ⟨hc', _⟩, p', q', e2, hp', _⟩
      obtain ⟨rfl, rfl, rfl⟩ := mid_inj e' (hov hx).1 (hov hcc).1 hx' (hov hc').1
      exact hin ⟨k, hk, ⟨p, q, e1, hq⟩, p', q', e2, hp'⟩
    · rintro hon ⟨l₀, hl, hn, rfl⟩
      obtain ⟨x, c, y, rfl, hx, ⟨hm, hcm⟩, hy⟩ := (s1 _).mp hl
      have hcs : strip c = c := by
        obtain ⟨v, hv⟩ := hm
        exact means_strip hv
      rw [eraseMark_mid (hov hx).1 hcm (hov hy).1 (hov hx).2 hcs (hov hy).2] at ho hon
      have hcc := (over_append.mp (over_append.mp ho).1).2
      obtain ⟨k, hk, ⟨p, q, e1, hq⟩, p', q', e2, hp'⟩ := hon x c y rfl hm
      refine hn ((s2 _).mpr ⟨k, hk, x, c, y, rfl, (hov hx).1, (hov hy).1, ⟨p, q, e1, ?_, hq⟩, ⟨hcc, ?_⟩, p', q', e2, hp', ?_⟩)
      · rw [e1] at hx
        exact (over_append.mp hx).1
      · obtain ⟨v, hv⟩ := hm
        cases d
        · trivial
        · exact ⟨c, v, hv, rfl⟩
        · exact ⟨c, v, hv, rfl⟩
      · rw [e2] at hy
        exact (over_append.mp hy).2
  -- the coercion
  have rb : ∀ l, Over al l → ((¬ ∃ l₀, (∃ v, L2 l₀ v) ∧ (¬ ∃ v, L1 l₀ v) ∧ l = eraseMark marker l₀) ↔
      AlwaysInContext d contexts mapping l) := by
    intro l ho
    constructor
    · intro hnot x c y e hin hcand
      subst e
      obtain ⟨hxc, hy⟩ := over_append.mp ho
      obtain ⟨hx, hcc⟩ := over_append.mp hxc
      obtain ⟨k, hk, ⟨p, q, e1, hq⟩, p', q', e2, hp'⟩ := hin
      by_contra hm
      refine hnot ⟨mid marker x c y, (s2 _).mpr ⟨k, hk, x, c, y, rfl, (hov hx).1, (hov hy).1, ⟨p, q, e1, ?_, hq⟩, ⟨hcc, hcand⟩,
        p', q', e2, hp', ?_⟩, ?_, (eraseMark_mid (hov hx).1 (hov hcc).1 (hov hy).1 (hov hx).2 (hov hcc).2 (hov hy).2).symm⟩
      · rw [e1] at hx
        exact (over_append.mp hx).1
      · rw [e2] at hy
        exact (over_append.mp hy).2
      · rw [s1]
        rintro ⟨x', c', y', e', hx', ⟨hm', hcm⟩, _⟩
        obtain ⟨rfl, rfl, rfl⟩ := mid_inj e' (hov hx).1 (hov hcc).1 (hov hx').1 hcm
        exact hm hm'
    · rintro hal ⟨l₀, hl, hn, rfl⟩
      obtain ⟨k, hk, x, c, y, rfl, hxm, hym, ⟨p, q, rfl, hp, v, hq⟩, ⟨hcc, hcand⟩, p', q', rfl, ⟨v', hp'⟩, hq'⟩ := (s2 _).mp hl
      have sx : strip (p ++ q) = p ++ q := by rw [strip_append, (hov hp).2, means_strip hq]
      have sy : strip (p' ++ q') = p' ++ q' := by rw [strip_append, (hov hq').2, means_strip hp']
      rw [eraseMark_mid hxm (hov hcc).1 hym sx (hov hcc).2 sy] at ho hal
      obtain ⟨hxc, hy⟩ := over_append.mp ho
      obtain ⟨hx, _⟩ := over_append.mp hxc
      refine hn ((s1 _).mpr ⟨_, c, _, rfl, hx, ⟨hal _ c _ rfl ⟨k, hk, ⟨p, q, rfl, v, hq⟩, p', q', rfl, v', hp'⟩ hcand, (hov hcc).1⟩, hy⟩)
  rw [restriction_eq _ _ _ _ _ _ hne]
  simp only [e1, e2, e3, e4, Outcome.bind]
  cases twol with
  | right =>
    simp only [e5]
    refine ⟨a, _, rfl, da.usual, da.plain, fun l w => ?_⟩
    rw [da.means]
    exact and_congr_right fun ho => and_congr_right fun _ => ra l ho
  | left =>
    simp only [e6]
    refine ⟨b, _, rfl, db.usual, db.plain, fun l w => ?_⟩
    rw [db.means]
    exact and_congr_right fun ho => and_congr_right fun _ => rb l ho
  | both =>
    obtain ⟨r, e7, dr⟩ := da.intersect hB db
    simp only [e5, e6, e7]
    refine ⟨r, _, rfl, dr.usual, dr.plain, fun l w => ?_⟩
    rw [dr.means]
    constructor
    · rintro ⟨w₁, w₂, ⟨h3, h4, h5⟩, ⟨_, h6, h7⟩, hw⟩
      exact ⟨h3, by omega, (ra l h3).mp h5, (rb l h3).mp h7⟩
    · rintro ⟨h3, h4, h5, h6⟩
      exact ⟨0, 0, ⟨h3, Int.le_refl _, (ra l h3).mpr h5⟩, ⟨h3, Int.le_refl _, (rb l h3).mpr h6⟩, by omega⟩

/-- C77: without contexts, or with an empty string as a symbol of the alphabet, the rules are refused. -/
theorem C77_throws (B : Backend) (contexts : List (Graph × Graph)) (mapping : Graph) (al : List (Sym × Sym)) (twol : TwolType)
    (d : Direction) (h : contexts = [] ∨ ∃ p ∈ al, p.1 = [] ∨ p.2 = []) : restriction B contexts mapping al twol d = .throws := by
  by_cases hne : contexts = []
  · unfold restriction
    rw [if_pos (by simp [hne])]
  · rw [restriction_eq _ _ _ _ _ _ hne]
    have : pairSet al true = .throws := by
      obtain ⟨p, hp, e⟩ := h.resolve_left hne
      unfold pairSet
      rw [if_pos]
      simp only [List.any_eq_true, Bool.or_eq_true, List.isEmpty_iff]
      exact ⟨p, hp, e⟩
    rw [this]
    rfl

/-- C77: `restriction`, `coercion` and `restriction_and_coercion` leave the mapping as it is. -/
theorem C77_mapping_partial (B : Backend) (contexts : List (Graph × Graph)) (mapping : Graph) (al : List (Sym × Sym)) (twol : TwolType)
    (r m' : Graph) (h : restriction B contexts mapping al twol .none = .ok (r, m')) : m' = mapping := by
  have hne : contexts ≠ [] := by
    rintro rfl
    rw [C77_throws B [] mapping al twol .none (.inl rfl)] at h
    cases h
  rw [restriction_eq _ _ _ _ _ _ hne] at h
  cases h1 : pairSet al true with
  | ok u =>
    rw [h1] at h
    dsimp only [Outcome.bind] at h
    cases h2 : concatenateAll B (single epsilon epsilon) [u, single marker marker, mapping, single marker marker, u] with
    | ok l1 =>
      rw [h2] at h
      dsimp only [candidates] at h
      cases h3 : contextUnion B u (single marker marker) u contexts Graph.init with
      | ok l2 =>
        rw [h3] at h
        dsimp only at h
        split at h
        · cases h
          rfl
        · cases h
        · cases h
      | throws => rw [h3] at h; cases h
      | undefined => rw [h3] at h; cases h
    | throws => rw [h2] at h; cases h
    | undefined => rw [h2] at h; cases h
  | throws => rw [h1] at h; cases h
  | undefined => rw [h1] at h; cases h

theorem letter_usual {x : Sym} (h1 : x ≠ []) (h2 : isSpecial x = false) :
    (Usual (single x x) ∧ Plain (single x x)) := ⟨(letter_den h1 h2).usual, (letter_den h1 h2).plain⟩

/-- C77 (disagreement): the surface and deep versions change the mapping that they are given.  After `deep_restriction` with the
mapping `a:b`, the mapping of the caller is `b`. -/
theorem C77_mapping_violated {B : Backend} (hB : B.Ok) : ∃ r m',
    restriction B [(single ['c'] ['c'], single ['c'] ['c'])] (single ['a'] ['b']) [(['a'], ['b']), (['c'], ['c'])] .right .deep =
      .ok (r, m') ∧ Relates (single ['a'] ['b']) [['a']] [['b']] 0 ∧ (∀ w, ¬ Relates m' [['a']] [['b']] w) ∧
    Relates m' [['b']] [['b']] 0 := by
  have us : Usual (single ['a'] ['b']) := single_usual (by decide) (by decide) (by decide)
  have ps : Plain (single ['a'] ['b']) := single_plain (by decide) (by decide)
  have hlc := letter_usual (x := ['c']) (by decide) (by decide)
  obtain ⟨r, m', e, _⟩ := C77_rules hB [(single ['c'] ['c'], single ['c'] ['c'])] (by simp)
    (by intro c hc; rw [List.mem_singleton.mp hc]; exact ⟨hlc, hlc⟩) (single ['a'] ['b']) us ps
    [(['a'], ['b']), (['c'], ['c'])] (by unfold Literal; decide) .right .deep
  have hm' : m' = outputProject B (single ['a'] ['b']) := by
    have h := e
    rw [restriction_eq _ _ _ _ _ _ (by simp)] at h
    generalize pairSet _ true = o1 at h
    cases o1 with
    | ok u =>
      dsimp only [Outcome.bind] at h
      generalize concatenateAll _ _ _ = o2 at h
      cases o2 with
      | ok l1 =>
        dsimp only at h
        generalize candidates _ _ _ _ = o3 at h
        cases o3 with
        | ok tmp =>
          dsimp only at h
          generalize contextUnion _ _ _ _ _ _ = o4 at h
          cases o4 with
          | ok l2 =>
            dsimp only at h
            generalize without _ _ _ _ = o5 at h
            cases o5 with
            | ok r' =>
              dsimp only at h
              cases h
              rfl
            | throws => cases h
            | undefined => cases h
          | throws => cases h
          | undefined => cases h
        | throws => cases h
        | undefined => cases h
      | throws => cases h
      | undefined => cases h
    | throws => cases h
    | undefined => cases h
  have hab := pair_relates (x := ['a']) (y := ['b']) (by decide) (by decide)
  have h0 : Relates (single ['a'] ['b']) [['a']] [['b']] 0 := (hab _ _ _).mpr ⟨by decide, rfl, rfl⟩
  obtain ⟨_, _, _, h4⟩ := C73_outputProject hB _ us
  refine ⟨r, m', e, h0, ?_, ?_⟩
  · rintro w ⟨l, hl, h1, h2⟩
    rw [hm'] at hl
    obtain ⟨l', hl', rfl⟩ := (h4 _ _).mp hl
    have h3 : ins (same (outs l')) = outs l' := ins_same (epsilon_outs l')
    have h5 : outs (same (outs l')) = outs l' := outs_same (epsilon_outs l')
    have : ([['a']] : List Sym) = [['b']] := by
      rw [← h1, ← h2]
      exact h3.trans h5.symm
    exact absurd this (by decide)
  · obtain ⟨l, hl, _, h2⟩ := h0
    refine ⟨same (outs l), ?_, ?_, ?_⟩
    · rw [hm']
      exact (h4 _ _).mpr ⟨l, hl, rfl⟩
    · rw [ins_same (epsilon_outs l), h2]
    · rw [outs_same (epsilon_outs l), h2]

/-- Restriction and coercion of `a:b` in the context `c _ e` with the reference back-end: `c a e` is refused by the surface
coercion and `a:b` alone by the restriction, and `a` alone is accepted. -/
example : ∃ r m', restriction reference [(single ['c'] ['c'], single ['e'] ['e'])] (single ['a'] ['b'])
      [(['a'], ['a']), (['a'], ['b']), (['c'], ['c']), (['e'], ['e'])] .both .surface = .ok (r, m') ∧
    (∀ w, ¬ Means r [(['c'], ['c']), (['a'], ['a']), (['e'], ['e'])] w) ∧ (∀ w, ¬ Means r [(['a'], ['b'])] w) ∧
    Means r [(['a'], ['a'])] 0 := by
  have us : Usual (single ['a'] ['b']) := single_usual (by decide) (by decide) (by decide)
  have ps : Plain (single ['a'] ['b']) := single_plain (by decide) (by decide)
  have hlc := letter_usual (x := ['c']) (by decide) (by decide)
  have hle := letter_usual (x := ['e']) (by decide) (by decide)
  have mc := (letter_den (x := ['c']) (by decide) (by decide)).means
  have me := (letter_den (x := ['e']) (by decide) (by decide)).means
  have hm : ∀ l w, Means (single ['a'] ['b']) l w ↔ 0 ≤ w ∧ l = [(['a'], ['b'])] := by
    intro l w
    rw [single_means (by decide)]
    refine and_congr_right fun _ => ?_
    constructor
    · rintro ⟨q, rfl, hq⟩
      rw [(st_literal (by decide) (by decide)).mp hq]
    · rintro rfl
      exact ⟨_, rfl, (st_literal (by decide) (by decide)).mpr rfl⟩
  obtain ⟨r, m', e, _, _, h⟩ := C77_rules reference_ok [(single ['c'] ['c'], single ['e'] ['e'])] (by simp)
    (by intro c hc; rw [List.mem_singleton.mp hc]; exact ⟨hlc, hle⟩) (single ['a'] ['b']) us ps
    [(['a'], ['a']), (['a'], ['b']), (['c'], ['c']), (['e'], ['e'])] (by unfold Literal; decide) .both .surface
  refine ⟨r, m', e, ?_, ?_, (h _ _).mpr ⟨by unfold Over; decide, by decide, ?_, ?_⟩⟩
  · intro w hw
    obtain ⟨_, _, _, h2⟩ := (h _ _).mp hw
    obtain ⟨v, hv⟩ := h2 [(['c'], ['c'])] [(['a'], ['a'])] [(['e'], ['e'])] rfl ⟨_, List.mem_singleton_self _,
      ⟨[], _, rfl, 0, (mc _ _).mpr ⟨by decide, rfl⟩⟩, _, [], rfl, 0, (me _ _).mpr ⟨by decide, rfl⟩⟩
      ⟨[(['a'], ['b'])], 0, (hm _ _).mpr ⟨by decide, rfl⟩, by decide⟩
    exact absurd ((hm _ _).mp hv).2 (by decide)
  · intro w hw
    obtain ⟨_, _, h1, _⟩ := (h _ _).mp hw
    obtain ⟨k, hk, ⟨p, q, e1, v, hv⟩, _⟩ := h1 [] [(['a'], ['b'])] [] rfl ⟨0, (hm _ _).mpr ⟨by decide, rfl⟩⟩
    rw [List.mem_singleton.mp hk] at hv
    rw [((mc _ _).mp hv).2] at e1
    simp at e1
  · rintro x c y e1 ⟨v, hv⟩
    rw [((hm _ _).mp hv).2] at e1
    have : ((['a'], ['b']) : Sym × Sym) ∈ ([(['a'], ['a'])] : List (Sym × Sym)) := by
      rw [e1]
      simp
    exact absurd this (by decide)
  · rintro x c y e1 ⟨k, hk, ⟨p, q, e2, v, hv⟩, _⟩ _
    rw [List.mem_singleton.mp hk] at hv
    rw [((mc _ _).mp hv).2] at e2
    have : ((['c'], ['c']) : Sym × Sym) ∈ ([(['a'], ['a'])] : List (Sym × Sym)) := by
      rw [e1, e2]
      simp
    exact absurd this (by decide)

end Hfst.Trans
