import Verif.Model.Traverse
import Verif.Spec.Traverse

/-!
# C104: hfst-traverse follows all paths
-/
namespace Hfst.Traverse
open Hfst.StdString Hfst.Basic

theorem walk_snoc {g : Graph} {s t : Nat} {as : List Arc} {a : Arc} :
    Walk g s (as ++ [a]) t ↔ ∃ m, Walk g s as m ∧ a ∈ g.arcs m ∧ a.target = t := by
  constructor
  · intro h
    generalize hb : as ++ [a] = bs at h
    cases h with
    | stay => simp at hb
    | go h ha =>
      obtain ⟨rfl, e⟩ := List.append_inj' hb rfl
      cases e
      exact ⟨_, h, ha, rfl⟩
  · rintro ⟨m, h, ha, rfl⟩
    exact .go h ha

/-- The paths are those of the labels (invariant for tools/src/hfst-traverse.cc:188-255). -/
def Right (g : Graph) (labels : List Sym) (paths : Paths) : Prop :=
  ∀ text t, (text, t) ∈ paths ↔ ∃ as, Walk g 0 as t ∧ as.map (·.inp) = labels ∧ text = shown as

theorem newPaths_right {g : Graph} {labels : List Sym} {paths : Paths} (h : Right g labels paths) (l : Sym) :
    Right g (labels ++ [l]) (newPaths g paths l) := by
  intro text t
  unfold newPaths
  simp only [List.mem_flatMap, List.mem_filterMap, Prod.exists]
  constructor
  · rintro ⟨u, m, hm, a, ha, e⟩
    by_cases hl : a.inp = l
    · rw [if_pos hl] at e
      simp only [Option.some.injEq, Prod.mk.injEq] at e
      obtain ⟨as, hw, hi, rfl⟩ := (h u m).1 hm
      refine ⟨as ++ [a], walk_snoc.2 ⟨m, hw, ha, e.2⟩, by simp [hi, hl], ?_⟩
      rw [← e.1]
      simp [shown, stepText]
    · rw [if_neg hl] at e
      cases e
  · rintro ⟨as, hw, hi, rfl⟩
    rcases List.eq_nil_or_concat as with rfl | ⟨bs, a, rfl⟩
    · simp at hi
    · rw [List.concat_eq_append] at hw hi ⊢
      rw [List.map_append, List.map_cons, List.map_nil] at hi
      obtain ⟨hi1, hi2⟩ := List.append_inj' hi rfl
      simp only [List.cons.injEq, and_true] at hi2
      obtain ⟨m, hw', ha, ht⟩ := walk_snoc.1 hw
      refine ⟨shown bs, m, (h _ _).2 ⟨bs, hw', hi1, rfl⟩, a, ha, ?_⟩
      rw [if_pos hi2, ht]
      simp [shown, stepText]

theorem newPaths_nil {g : Graph} {labels : List Sym} {paths : Paths} (h : Right g labels paths) (l : Sym) :
    newPaths g paths l = [] ↔ ¬ Readable g (labels ++ [l]) := by
  have hr := newPaths_right h l
  constructor
  · rintro e ⟨as, t, hw, hi⟩
    have := (hr (shown as) t).2 ⟨as, hw, hi, rfl⟩
    rw [e] at this
    cases this
  · intro hn
    rw [List.eq_nil_iff_forall_not_mem]
    rintro ⟨text, t⟩ hx
    obtain ⟨as, hw, hi, _⟩ := (hr text t).1 hx
    exact hn ⟨as, t, hw, hi⟩

theorem session_snoc (g : Graph) (lines : List Sym) (l : Sym) : session g (lines ++ [l]) = advance g (session g lines) l := by
  unfold session
  rw [List.foldl_append]
  rfl

/-- **C104, the lines that are followed**: for every list of lines there is one list of labels that are followed. -/
theorem C104_followed (g : Graph) (lines : List Sym) : ∃ labels, Followed g lines labels ∧ ∀ other, Followed g lines other → other = labels := by
  induction hn : lines.length generalizing lines with
  | zero =>
    have : lines = [] := List.length_eq_zero_iff.1 hn
    subst this
    refine ⟨[], .none, fun other h => ?_⟩
    generalize hb : ([] : List Sym) = bs at h
    cases h with
    | none => rfl
    | yes _ _ => simp at hb
    | no _ _ => simp at hb
  | succ n ih =>
    rcases List.eq_nil_or_concat lines with rfl | ⟨bs, l, rfl⟩
    · simp at hn
    · rw [List.concat_eq_append] at *
      obtain ⟨labels, h1, h2⟩ := ih bs (by simpa using hn)
      by_cases hr : Readable g (labels ++ [l])
      · refine ⟨labels ++ [l], .yes h1 hr, fun other h => ?_⟩
        generalize hb : bs ++ [l] = cs at h
        cases h with
        | none => simp at hb
        | yes h hr' =>
          obtain ⟨rfl, e⟩ := List.append_inj' hb rfl
          cases e
          rw [h2 _ h]
        | no h hr' =>
          obtain ⟨rfl, e⟩ := List.append_inj' hb rfl
          cases e
          rw [h2 _ h] at hr'
          exact absurd hr hr'
      · refine ⟨labels, .no h1 hr, fun other h => ?_⟩
        generalize hb : bs ++ [l] = cs at h
        cases h with
        | none => simp at hb
        | yes h hr' =>
          obtain ⟨rfl, e⟩ := List.append_inj' hb rfl
          cases e
          rw [h2 _ h] at hr'
          exact absurd hr' hr
        | no h hr' =>
          obtain ⟨rfl, e⟩ := List.append_inj' hb rfl
          cases e
          exact h2 _ h

theorem session_right {g : Graph} {lines labels : List Sym} (h : Followed g lines labels) : Right g labels (session g lines) := by
  induction h with
  | none =>
    intro text t
    constructor
    · intro hm
      simp only [session, List.foldl_nil, List.mem_singleton, Prod.mk.injEq] at hm
      obtain ⟨rfl, rfl⟩ := hm
      exact ⟨[], .stay 0, rfl, rfl⟩
    · rintro ⟨as, hw, hi, rfl⟩
      have : as = [] := List.map_eq_nil_iff.1 hi
      subst this
      generalize hb : ([] : List Arc) = bs at hw
      cases hw with
      | stay => simp [session, shown]
      | go _ _ => simp at hb
  | yes h hr ih =>
    rw [session_snoc]
    unfold advance
    rw [if_neg (fun e => (newPaths_nil ih _).1 e hr)]
    exact newPaths_right ih _
  | no h hr ih =>
    rw [session_snoc]
    unfold advance
    rw [if_pos ((newPaths_nil ih _).2 hr)]
    exact ih

/-- **C104, the paths shown**: after any lines, the paths shown are exactly those from the initial state that read the lines that could
be followed, and with each of them the transitions of its last state are printed, in their order. -/
theorem C104_screen (g : Graph) (lines labels : List Sym) (h : Followed g lines labels) (text : Str) (offers : List (Sym × Sym)) :
    (text, offers) ∈ screen g lines ↔
      ∃ as t, Walk g 0 as t ∧ as.map (·.inp) = labels ∧ text = shown as ∧ offers = (g.arcs t).map (fun a => (a.inp, a.out)) := by
  unfold screen
  simp only [List.mem_map, Prod.exists, Prod.mk.injEq]
  constructor
  · rintro ⟨u, t, hm, rfl, rfl⟩
    obtain ⟨as, hw, hi, e⟩ := (session_right h u t).1 hm
    exact ⟨as, t, hw, hi, e, rfl⟩
  · rintro ⟨as, t, hw, hi, rfl, rfl⟩
    exact ⟨_, t, (session_right h _ t).2 ⟨as, hw, hi, rfl⟩, rfl, rfl⟩

/-- **C104, there is always a path**: whatever lines are entered, some path is shown. -/
theorem C104_never_lost (g : Graph) (lines : List Sym) : screen g lines ≠ [] := by
  have : session g lines ≠ [] := by
    induction hn : lines.length generalizing lines with
    | zero =>
      have : lines = [] := List.length_eq_zero_iff.1 hn
      subst this
      simp [session]
    | succ n ih =>
      rcases List.eq_nil_or_concat lines with rfl | ⟨bs, l, rfl⟩
      · simp at hn
      · rw [List.concat_eq_append] at *
        rw [session_snoc]
        unfold advance
        split
        · exact ih bs (by simpa using hn)
        · assumption
  unfold screen
  simpa using this

/-! ## Cases that meet the hypotheses -/

/-- Two transitions for `a`, one of which can be followed by `b` (an example for tools/src/hfst-traverse.cc:188-255). -/
def fork : Graph :=
  ⟨[[⟨1, ['a'], ['x'], 0⟩, ⟨2, ['a'], ['y'], 0⟩], [⟨2, ['b'], ['b'], 0⟩], []], [(2, 0)], [epsilon, ['a'], ['b'], ['x'], ['y']]⟩

example : screen fork [['a']] = [("a:x ".toList, [(['b'], ['b'])]), ("a:y ".toList, [])] ∧
    screen fork [['a'], ['c'], ['b']] = [("a:x b:b ".toList, [])] := by decide +kernel

/-- After the lines `a` and `c` only `a` has been followed. -/
example : Followed fork [['a'], ['c']] [['a']] := by
  have right0 : Right fork [] (session fork []) := session_right .none
  have h1 : Followed fork [['a']] [['a']] := by
    refine Followed.yes (lines := []) (labels := []) .none ?_
    by_cases h : Readable fork ([] ++ [['a']])
    · exact h
    · exact absurd ((newPaths_nil right0 ['a']).2 h) (by decide +kernel)
  refine Followed.no (lines := [['a']]) (labels := [['a']]) h1 ((newPaths_nil (session_right h1) ['c']).1 ?_)
  decide +kernel

end Hfst.Traverse
