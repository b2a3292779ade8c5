import Verif.Props.Lookup
import Verif.Lemmas.Graph
import Mathlib.Logic.Relation

/-!
# C24, C59, C60: questions about cycles
-/
namespace Hfst.Basic
open Hfst.Flags Relation

/-! ## C24: infinite ambiguity -/

/-- A transition from `s` to `t` that consumes no input: its input symbol is epsilon or a flag. -/
def Silent (g : Graph) (s t : Nat) : Prop :=
  ∃ a ∈ g.arcs s, (a.inp = epsilon ∨ isDiacritic a.inp = true) ∧ a.target = t

/-- `s` lies on a cycle of transitions that consume no input. -/
def OnSilentCycle (g : Graph) (s : Nat) : Prop := TransGen (Silent g) s s

/-- `t` can be reached from the start. -/
def Reachable (g : Graph) (t : Nat) : Prop := ∃ l w, Path g 0 l w t

section amb
variable {g : Graph}

/-- A silent cycle can be reached silently. -/
def Bad (g : Graph) (s : Nat) : Prop := ∃ t, ReflTransGen (Silent g) s t ∧ TransGen (Silent g) t t

theorem noInput_iff (a : Arc) : noInput a = true ↔ a.inp = epsilon ∨ isDiacritic a.inp = true := by
  simp [noInput]

theorem Bad.step {s t : Nat} (h : Silent g s t) (hb : Bad g t) : Bad g s := by
  obtain ⟨u, h1, h2⟩ := hb
  exact ⟨u, .head h h1, h2⟩

theorem bad_inv {s : Nat} (h : Bad g s) : ∃ t, Silent g s t ∧ Bad g t := by
  obtain ⟨u, h1, h2⟩ := h
  rcases ReflTransGen.cases_head h1 with rfl | ⟨t, h3, h4⟩
  · obtain ⟨t, h3, h4⟩ := TransGen.head'_iff.mp h2
    exact ⟨t, h3, s, h4, h2⟩
  · exact ⟨t, h3, u, h4, h2⟩

theorem setErase_insert {s : Nat} {path : List Nat} (h : s ∉ path) : setErase (setInsert path s) s = path := by
  unfold setErase setInsert
  rw [if_neg h, List.filter_cons_of_neg (by simp), List.filter_eq_self]
  intro x hx
  have : x ≠ s := fun e => h (e ▸ hx)
  simpa using this

/-- What a call for one state gives. -/
def AmbOk (g : Graph) (s : Nat) (path : List Nat) (o : Outcome (Bool × List Nat × List Nat)) : Prop :=
  ∃ b path' handled', o = .ok (b, path', handled') ∧ (b = true → Bad g s) ∧
    (b = false → path' = path ∧ ¬ Bad g s ∧ ∀ h ∈ handled', ¬ Bad g h)

theorem ambLoop_spec (call : Nat → List Nat → List Nat → Outcome (Bool × List Nat × List Nat)) {s : Nat}
    {path : List Nat} (hs : s ∉ path) (hpath : ∀ p ∈ path, TransGen (Silent g) p s)
    (hcall : ∀ t handled, Silent g s t → t ∉ s :: path → (∀ h ∈ handled, ¬ Bad g h) →
      AmbOk g t (s :: path) (call t (s :: path) handled)) :
    ∀ (as : List Arc) (handled : List Nat), (∀ a ∈ as, a ∈ g.arcs s) → (∀ h ∈ handled, ¬ Bad g h) →
      ∃ b path' handled', ambLoop call s as path handled = .ok (b, path', handled') ∧ (b = true → Bad g s) ∧
        (b = false → path' = path ∧ (∀ a ∈ as, noInput a = true → ¬ Bad g a.target) ∧ ∀ h ∈ handled', ¬ Bad g h)
  | [], handled, _, hh => ⟨false, path, handled, rfl, by simp, fun _ => ⟨rfl, by simp, hh⟩⟩
  | a :: as, handled, ha, hh => by
    rw [ambLoop]
    by_cases hn : noInput a = true
    · have hsil : Silent g s a.target := ⟨a, ha a (by simp), (noInput_iff a).mp hn, rfl⟩
      have hins : setInsert path s = s :: path := by unfold setInsert; rw [if_neg hs]
      rw [if_pos hn]
      dsimp only
      rw [hins]
      by_cases ht : a.target ∈ s :: path
      · rw [if_pos ht]
        refine ⟨true, _, _, rfl, fun _ => ?_, by simp⟩
        rcases List.mem_cons.mp ht with ht | ht
        · exact ⟨s, .refl, .single (ht ▸ hsil)⟩
        · exact ⟨s, .refl, .head hsil (hpath _ ht)⟩
      · rw [if_neg ht]
        obtain ⟨b, p', h', e, h1, h2⟩ := hcall a.target handled hsil ht hh
        rw [e]
        cases b with
        | true => exact ⟨true, _, _, rfl, fun _ => (h1 rfl).step hsil, by simp⟩
        | false =>
          obtain ⟨rfl, h3, h4⟩ := h2 rfl
          dsimp only
          have : setErase (s :: path) s = path := by rw [← hins]; exact setErase_insert hs
          rw [this]
          obtain ⟨b, p', h'', e, k1, k2⟩ := ambLoop_spec call hs hpath hcall as h' (fun x hx => ha x (by simp [hx])) h4
          refine ⟨b, p', h'', e, k1, fun hb => ?_⟩
          obtain ⟨k3, k4, k5⟩ := k2 hb
          refine ⟨k3, ?_, k5⟩
          intro x hx hnx
          rcases List.mem_cons.mp hx with rfl | hx
          · exact h3
          · exact k4 x hx hnx
    · rw [if_neg hn]
      obtain ⟨b, p', h', e, k1, k2⟩ := ambLoop_spec call hs hpath hcall as handled (fun x hx => ha x (by simp [hx])) hh
      refine ⟨b, p', h', e, k1, fun hb => ?_⟩
      obtain ⟨k3, k4, k5⟩ := k2 hb
      refine ⟨k3, ?_, k5⟩
      intro x hx hnx
      rcases List.mem_cons.mp hx with rfl | hx
      · exact absurd hnx hn
      · exact k4 x hx hnx

theorem nodup_le {n : Nat} {l : List Nat} (h : l.Nodup) (hl : ∀ x ∈ l, x < n) : l.length ≤ n := by
  have h1 : l ⊆ List.range n := fun s hs => List.mem_range.mpr (hl s hs)
  simpa using (h.subperm h1).length_le

theorem ambGo_spec (hg : WF g) : ∀ (n s : Nat) (path handled : List Nat), s < g.states.length → s ∉ path →
    path.Nodup → (∀ p ∈ path, p < g.states.length ∧ TransGen (Silent g) p s) → (∀ h ∈ handled, ¬ Bad g h) →
    g.states.length - path.length < n → AmbOk g s path (ambGo g n s path handled)
  | 0, _, _, _, _, _, _, _, _, h => by omega
  | n + 1, s, path, handled, hs, hsp, hnd, hp, hh, hn => by
    have hlen : (s :: path).length ≤ g.states.length :=
      nodup_le (List.nodup_cons.mpr ⟨hsp, hnd⟩) (by
        intro x hx
        rcases List.mem_cons.mp hx with rfl | hx
        · exact hs
        · exact (hp x hx).1)
    rw [List.length_cons] at hlen
    rw [ambGo, List.getElem?_eq_getElem hs]
    dsimp only
    by_cases hhs : s ∈ handled
    · rw [if_pos hhs]
      exact ⟨false, _, _, rfl, by simp, fun _ => ⟨rfl, hh s hhs, hh⟩⟩
    · rw [if_neg hhs]
      have harcs := arcs_of_get (List.getElem?_eq_getElem hs)
      obtain ⟨b, p', h', e, k1, k2⟩ := ambLoop_spec (g := g) (ambGo g n) hsp (fun p h => (hp p h).2) (by
        intro t handled ht htp hh'
        have htlt : t < g.states.length := by
          obtain ⟨a, ha, _, rfl⟩ := ht
          exact hg.targets _ _ ha
        refine ambGo_spec hg n t (s :: path) handled htlt htp (List.nodup_cons.mpr ⟨hsp, hnd⟩) ?_ hh' ?_
        · intro p h
          rcases List.mem_cons.mp h with rfl | h
          · exact ⟨hs, .single ht⟩
          · exact ⟨(hp p h).1, .tail (hp p h).2 ht⟩
        · rw [List.length_cons]; omega) g.states[s] handled (fun a ha => by rw [harcs]; exact ha) hh
      rw [e]
      cases b with
      | true => exact ⟨true, _, _, rfl, k1, by simp⟩
      | false =>
        obtain ⟨rfl, k3, k4⟩ := k2 rfl
        have hbad : ¬ Bad g s := by
          intro hb
          obtain ⟨t, ⟨a, ha, hna, rfl⟩, hbt⟩ := bad_inv hb
          rw [harcs] at ha
          exact k3 a ha ((noInput_iff a).mpr hna) hbt
        refine ⟨false, _, _, rfl, by simp, fun _ => ⟨rfl, hbad, ?_⟩⟩
        intro h hh2
        rcases List.mem_cons.mp hh2 with rfl | hh2
        · exact hbad
        · exact k4 h hh2

theorem ambAll_spec (hg : WF g) {fuel : Nat} (hf : g.states.length < fuel) : ∀ (ss handled : List Nat),
    (∀ s ∈ ss, s < g.states.length) → (∀ h ∈ handled, ¬ Bad g h) →
      ∃ b, ambAll fuel g ss [] handled = .ok b ∧ (b = true ↔ ∃ s ∈ ss, Bad g s)
  | [], _, _, _ => ⟨false, rfl, by simp⟩
  | s :: ss, handled, hs, hh => by
    rw [ambAll]
    obtain ⟨b, p', h', e, k1, k2⟩ := ambGo_spec hg fuel s [] handled (hs s (by simp)) (by simp) (by simp) (by simp) hh
      (by simpa using hf)
    rw [e]
    cases b with
    | true => exact ⟨true, rfl, by simpa using Or.inl (k1 rfl)⟩
    | false =>
      obtain ⟨rfl, k3, k4⟩ := k2 rfl
      obtain ⟨b, e, h⟩ := ambAll_spec hg hf ss h' (fun x hx => hs x (by simp [hx])) k4
      refine ⟨b, e, ?_⟩
      rw [h]
      simp [k3]

end amb

/-- The answer is yes exactly if some state, reachable or not, lies on a cycle of transitions that consume no input. -/
theorem C24_exact (g : Graph) (hg : WF g) (fuel : Nat) (hf : g.states.length < fuel) :
    ∃ b, isInfinitelyAmbiguous fuel g = .ok b ∧ (b = true ↔ ∃ s, OnSilentCycle g s) := by
  have hmax : g.maxState + 1 = g.states.length := by
    have := hg.nonempty
    unfold Graph.maxState; omega
  obtain ⟨b, e, h⟩ := ambAll_spec hg hf (List.range (g.maxState + 1)) [] (by
    intro s hs; rw [hmax] at hs; exact List.mem_range.mp hs) (by simp)
  refine ⟨b, e, h.trans ?_⟩
  constructor
  · rintro ⟨s, _, t, _, h2⟩
    exact ⟨t, h2⟩
  · rintro ⟨s, hs⟩
    refine ⟨s, ?_, s, .refl, hs⟩
    obtain ⟨t, ⟨a, ha, _⟩, _⟩ := TransGen.head'_iff.mp hs
    rw [hmax, List.mem_range]
    by_contra hlt
    simp [Graph.arcs, List.getElem?_eq_none (not_lt.mp hlt)] at ha

/-- If every state can be reached, the answer is yes exactly if some state that can be reached lies on such a cycle.
Missing: transducers with states that cannot be reached, see `C24_unreachable_violated`. -/
theorem C24_partial (g : Graph) (hg : WF g) (hr : ∀ s < g.states.length, Reachable g s) (fuel : Nat)
    (hf : g.states.length < fuel) :
    ∃ b, isInfinitelyAmbiguous fuel g = .ok b ∧ (b = true ↔ ∃ s, Reachable g s ∧ OnSilentCycle g s) := by
  obtain ⟨b, e, h⟩ := C24_exact g hg fuel hf
  refine ⟨b, e, h.trans ⟨?_, fun ⟨s, _, h⟩ => ⟨s, h⟩⟩⟩
  rintro ⟨s, hs⟩
  refine ⟨s, hr s ?_, hs⟩
  obtain ⟨t, ⟨a, ha, _⟩, _⟩ := TransGen.head'_iff.mp hs
  by_contra hlt
  simp [Graph.arcs, List.getElem?_eq_none (not_lt.mp hlt)] at ha

example : WF loopGraph ∧ ∀ s < loopGraph.states.length, Reachable loopGraph s := by
  refine ⟨loopGraph_wf, ?_⟩
  intro s hs
  match s, hs with
  | 0, _ => exact ⟨[], 0, .nil 0⟩
  | 1, _ => exact ⟨_, _, Path.single (a := ⟨1, ['a'], ['b'], 2⟩) (by simp [loopGraph, Graph.arcs])⟩

example : isInfinitelyAmbiguous 5 loopGraph = .ok true := by decide +kernel

/-- A loop at a state that cannot be reached makes the answer yes. -/
theorem C24_unreachable_violated : ∃ g, WF g ∧ isInfinitelyAmbiguous 5 g = .ok true ∧
    ¬ ∃ s, Reachable g s ∧ OnSilentCycle g s := by
  refine ⟨{ states := [[], [⟨1, epsilon, epsilon, 0⟩]], finals := [(0, 0)], alphabet := [epsilon, unknown, identity] },
    ⟨by decide, ?_, ?_⟩, by decide +kernel, ?_⟩
  · intro s a ha
    match s, ha with
    | 0, ha => simp [Graph.arcs] at ha
    | 1, ha => simp [Graph.arcs] at ha; subst ha; decide
    | n + 2, ha => simp [Graph.arcs] at ha
  · intro s w h
    match s, h with
    | 0, _ => decide
    | n + 1, h => simp [Graph.final, mapGet] at h
  · rintro ⟨s, ⟨l, w, hp⟩, hc⟩
    have hs : s = 0 := by
      cases hp with
      | nil => rfl
      | cons ha _ => simp [Graph.arcs] at ha
    subst hs
    obtain ⟨t, ⟨a, ha, _⟩, _⟩ := TransGen.head'_iff.mp hc
    simp [Graph.arcs] at ha

/-! ## C59: infinite ambiguity of one input -/

section lookAmb
variable {g : Graph} {obey : Bool}

/-- The run comes back to a state of its present stretch; `seen` are the states of the first stretch so far. -/
def rep : List Nat → List Step → Prop
  | _, [] => False
  | seen, (a, none) :: l => a.target ∈ seen ∨ rep (a.target :: seen) l
  | _, (a, some _) :: l => rep [a.target] l

/-- There is a run that reads a beginning of `rest`, has valid flags and comes back within a stretch. -/
def Comes (g : Graph) (obey : Bool) (rest : List Sym) (s : Nat) (seen : List Nat) (fds : List Sym) : Prop :=
  ∃ l q, Run g s l q ∧ inputOf l <+: rest ∧ (obey = true → sIsValidString (fds ++ flagsOf l) = true) ∧ rep seen l

theorem flag_possible {x : Sym} {fds : List Sym} (hd : isDiacritic x = true)
    (hv : obey = true → sIsValidString (fds ++ [x]) = true) : isPossibleFlag x fds obey = some (fds ++ [x]) := by
  unfold isPossibleFlag
  rw [if_pos hd]
  cases obey with
  | false => rfl
  | true => rw [hv rfl]; rfl

theorem flagsOf_cons (x : Step) (l : List Step) : flagsOf (x :: l) = flagsOf [x] ++ flagsOf l := flagsOf_append [x] l

theorem flagsOf_none (a : Arc) : flagsOf [(a, none)] = if isDiacritic a.inp then [a.inp] else [] := by
  simp [flagsOf, shown, List.filter_cons]

theorem flagsOf_some {c : Sym} (a : Arc) (hc : isDiacritic c = false) : flagsOf [(a, some c)] = [] := by
  simp [flagsOf, shown, hc]

/-- The flags after a step that consumes nothing. -/
theorem flags_next {a : Arc} {fds : List Sym}
    (h : a.inp = epsilon ∨ (isPossibleFlag a.inp fds obey).isSome = true) :
    (isPossibleFlag a.inp fds obey).getD fds = fds ++ flagsOf [(a, none)] := by
  rw [flagsOf_none]
  unfold isPossibleFlag at h ⊢
  split_ifs at h ⊢ with h1 h2
  · rfl
  · rcases h with h | h
    · rw [h, special_ne.2.2.2.2.2] at h1; cases h1
    · simp at h
  · simp

/-- A run that starts with the step `x`, reads a beginning of `rest`, has valid flags and comes back. -/
def Starts (g : Graph) (obey : Bool) (rest : List Sym) (seen : List Nat) (fds : List Sym) (x : Step) : Prop :=
  ∃ l q, Fits g.alphabet x ∧ Run g x.1.target l q ∧ inputOf (x :: l) <+: rest ∧
    (obey = true → sIsValidString (fds ++ flagsOf (x :: l)) = true) ∧ rep seen (x :: l)

theorem starts_none {rest : List Sym} {seen : List Nat} {fds : List Sym} {a : Arc} (hf : Fits g.alphabet (a, none))
    (hv : obey = true → sIsValidString (fds ++ flagsOf [(a, none)]) = true) :
    Starts g obey rest seen fds (a, none) ↔
      a.target ∈ seen ∨ Comes g obey rest a.target (a.target :: seen) (fds ++ flagsOf [(a, none)]) := by
  constructor
  · rintro ⟨l, q, _, h1, h2, h3, h4 | h4⟩
    · exact .inl h4
    · refine .inr ⟨l, q, h1, h2, ?_, h4⟩
      rw [flagsOf_cons, ← List.append_assoc] at h3
      exact h3
  · rintro (h | ⟨l, q, h1, h2, h3, h4⟩)
    · exact ⟨[], _, hf, .nil _, by simp [inputOf], hv, .inl h⟩
    · refine ⟨l, q, hf, h1, h2, ?_, .inr h4⟩
      rw [flagsOf_cons, ← List.append_assoc]
      exact h3

theorem starts_some {rest : List Sym} {seen : List Nat} {fds : List Sym} {a : Arc} {c : Sym}
    (hf : Fits g.alphabet (a, some c)) (hc : isDiacritic c = false) :
    Starts g obey (c :: rest) seen fds (a, some c) ↔ Comes g obey rest a.target [a.target] fds := by
  have e : ∀ l, inputOf ((a, some c) :: l) = c :: inputOf l := fun _ => rfl
  have e2 : ∀ l, flagsOf ((a, some c) :: l) = flagsOf l := fun l => by
    rw [flagsOf_cons, flagsOf_some a hc, List.nil_append]
  unfold Starts Comes
  simp only [e2, e, List.cons_prefix_cons, true_and, rep]
  constructor
  · rintro ⟨l, q, _, h⟩; exact ⟨l, q, h⟩
  · rintro ⟨l, q, h⟩; exact ⟨l, q, hf, h⟩

theorem matches_iff (al : List Sym) (c : Sym) (a : Arc) : matchesInput al c a = true ↔ Fits al (a, some c) := by
  unfold matchesInput Fits
  rw [Bool.or_eq_true, Bool.and_eq_true, Bool.or_eq_true, decide_eq_true_iff, decide_eq_true_iff, decide_eq_true_iff,
    decide_eq_true_iff]
  constructor
  · rintro (h | ⟨h | h, h'⟩)
    · exact .inl h
    · exact .inr ⟨.inr h, h'⟩
    · exact .inr ⟨.inl h, h'⟩
  · rintro (h | ⟨h | h, h'⟩)
    · exact .inl h
    · exact .inr ⟨.inr h, h'⟩
    · exact .inr ⟨.inl h, h'⟩

theorem lookAmbLoop_spec (call : List Sym → Nat → List Nat → List Sym → Outcome (Bool × List Nat)) {rest : List Sym}
    (hin : ∀ c ∈ rest, c ≠ epsilon ∧ isDiacritic c = false) {s : Nat} {path : List Nat} {fds : List Sym} (hs : s ∉ path)
    (hv : obey = true → sIsValidString fds = true)
    (hcall : ∀ a ∈ g.arcs s, a.target ∉ s :: path → ∀ fds, (obey = true → sIsValidString fds = true) →
      ∃ b p, call rest a.target (s :: path) fds = .ok (b, p) ∧
      (b = false → p = s :: path) ∧ (b = true ↔ Comes g obey rest a.target (a.target :: s :: path) fds))
    (hcall2 : ∀ a ∈ g.arcs s, ∀ c rest', rest = c :: rest' → ∃ b p, call rest' a.target [] fds = .ok (b, p) ∧
      (b = true ↔ Comes g obey rest' a.target [a.target] fds)) :
    ∀ (as : List Arc) (path0 : List Nat), (∀ a ∈ as, a ∈ g.arcs s) → (path0 = path ∨ path0 = s :: path) →
      ∃ b p, lookAmbLoop call g.alphabet rest s fds obey as path0 = .ok (b, p) ∧
        (b = false → path0 = path → p = path) ∧
        (b = true ↔ ∃ x, x.1 ∈ as ∧ Starts g obey rest (s :: path) fds x)
  | [], path0, _, _ => ⟨false, path0, rfl, fun _ h => h, by simp⟩
  | a :: as, path0, ha, hp0 => by
    obtain ⟨i1, i2, i3, d1, d2, d3⟩ := special_ne
    have hsplit : (∃ x : Step, x.1 ∈ a :: as ∧ Starts g obey rest (s :: path) fds x) ↔
        Starts g obey rest (s :: path) fds (a, none) ∨ (∃ c, Starts g obey rest (s :: path) fds (a, some c)) ∨
        ∃ x : Step, x.1 ∈ as ∧ Starts g obey rest (s :: path) fds x := by
      constructor
      · rintro ⟨⟨b, o⟩, hb, h⟩
        rcases List.mem_cons.mp hb with hb | hb
        · obtain rfl : b = a := hb
          cases o with
          | none => exact .inl h
          | some c => exact .inr (.inl ⟨c, h⟩)
        · exact .inr (.inr ⟨_, hb, h⟩)
      · rintro (h | ⟨c, h⟩ | ⟨x, hx, h⟩)
        · exact ⟨_, by simp, h⟩
        · exact ⟨_, by simp, h⟩
        · exact ⟨x, by simp [hx], h⟩
    have hcons : ∀ c, Starts g obey rest (s :: path) fds (a, some c) → ∃ r, rest = c :: r := by
      rintro c ⟨l, q, _, _, h, _⟩
      obtain ⟨r, hr⟩ := h
      exact ⟨_, hr.symm⟩
    have ih := fun p h => lookAmbLoop_spec call hin hs hv hcall hcall2 as p (fun x hx => ha x (by simp [hx])) h
    have hins : setInsert path0 s = s :: path := by
      unfold setInsert
      rcases hp0 with rfl | rfl
      · rw [if_neg hs]
      · rw [if_pos (by simp)]
    have hers : setErase (s :: path) s = path := by
      have := setErase_insert hs
      unfold setInsert at this
      rwa [if_neg hs] at this
    rw [hsplit]
    unfold lookAmbLoop
    by_cases hc : a.inp = epsilon ∨ (isPossibleFlag a.inp fds obey).isSome = true
    · rw [if_pos hc]
      dsimp only
      rw [flags_next hc, hins]
      have hdia : a.inp = epsilon ∨ isDiacritic a.inp = true := by
        refine hc.imp id fun h => ?_
        unfold isPossibleFlag at h
        by_contra hd
        rw [if_neg hd] at h; cases h
      have hv' : obey = true → sIsValidString (fds ++ flagsOf [(a, none)]) = true := by
        intro ho
        rw [flagsOf_none]
        split_ifs with hd
        · rcases hc with hc | hc
          · rw [hc, d3] at hd; cases hd
          · unfold isPossibleFlag at hc
            rw [if_pos hd] at hc
            subst ho
            by_contra hn
            rw [if_neg (by simpa using hn)] at hc
            cases hc
        · simpa using hv ho
      have hno : ¬ ∃ c, Starts g obey rest (s :: path) fds (a, some c) := by
        rintro ⟨c, h⟩
        obtain ⟨r, hr⟩ := hcons c h
        obtain ⟨l, q, hf, _⟩ := h
        have hcr := hin c (by rw [hr]; simp)
        rcases hf with hf | ⟨hf, _⟩
        · rcases hdia with hd | hd
          · exact hcr.1 (hf.symm.trans hd)
          · rw [hf, hcr.2] at hd; cases hd
        · rcases hf with hf | hf <;> rw [hf] at hdia <;> rcases hdia with hd | hd
          · exact i2 hd
          · rw [d1] at hd; cases hd
          · exact i3 hd
          · rw [d2] at hd; cases hd
      have hst := starts_none (rest := rest) (seen := s :: path) (g := g) (obey := obey) hdia hv'
      by_cases ht : a.target ∈ s :: path
      · rw [if_pos ht]
        exact ⟨true, _, rfl, by simp, iff_of_true rfl (.inl (hst.mpr (.inl ht)))⟩
      · rw [if_neg ht]
        obtain ⟨b, p, e, h1, h2⟩ := hcall a (ha a (by simp)) ht _ hv'
        rw [e]
        cases b with
        | true => exact ⟨true, _, rfl, by simp, iff_of_true rfl (.inl (hst.mpr (.inr (h2.mp rfl))))⟩
        | false =>
          obtain rfl := h1 rfl
          dsimp only
          rw [hers]
          obtain ⟨b, p, e, k1, k2⟩ := ih path (.inl rfl)
          refine ⟨b, p, e, fun hb _ => k1 hb rfl, k2.trans ?_⟩
          have hn : ¬ Starts g obey rest (s :: path) fds (a, none) := by
            rw [hst]
            rintro (h | h)
            · exact ht h
            · exact absurd (h2.mpr h) (by simp)
          constructor
          · exact fun h => .inr (.inr h)
          · rintro (h | h | h)
            · exact (hn h).elim
            · exact (hno h).elim
            · exact h
    · rw [if_neg hc]
      have hn : ¬ Starts g obey rest (s :: path) fds (a, none) := by
        rintro ⟨l, q, hf, _, _, h3, _⟩
        rcases hf with hf | hf
        · exact hc (.inl hf)
        · refine hc (.inr ?_)
          rw [flag_possible hf]
          · rfl
          · intro ho
            have := h3 ho
            rw [flagsOf_cons, ← List.append_assoc] at this
            have := valid_prefix this
            rwa [flagsOf_none, if_pos hf] at this
      cases hrest : rest with
      | nil =>
        dsimp only
        rw [← hrest]
        obtain ⟨b, p, e, k1, k2⟩ := ih path0 hp0
        refine ⟨b, p, e, k1, k2.trans ?_⟩
        constructor
        · exact fun h => .inr (.inr h)
        · rintro (h | ⟨c, h⟩ | h)
          · exact (hn h).elim
          · obtain ⟨r, hr⟩ := hcons c h
            rw [hrest] at hr; cases hr
          · exact h
      | cons c rest' =>
        dsimp only
        rw [← hrest]
        have hcd := (hin c (by rw [hrest]; simp)).2
        by_cases hm : matchesInput g.alphabet c a = true
        · rw [if_pos hm]
          have hst : Starts g obey rest (s :: path) fds (a, some c) ↔ Comes g obey rest' a.target [a.target] fds := by
            rw [hrest]
            exact starts_some ((matches_iff _ _ _).mp hm) hcd
          obtain ⟨b, p, e, h2⟩ := hcall2 a (ha a (by simp)) c rest' hrest
          rw [e]
          cases b with
          | true => exact ⟨true, _, rfl, by simp, iff_of_true rfl (.inr (.inl ⟨c, hst.mpr (h2.mp rfl)⟩))⟩
          | false =>
            dsimp only
            obtain ⟨b, p, e, k1, k2⟩ := ih path0 hp0
            refine ⟨b, p, e, k1, k2.trans ?_⟩
            constructor
            · exact fun h => .inr (.inr h)
            · rintro (h | ⟨c', h⟩ | h)
              · exact (hn h).elim
              · obtain ⟨r, hr⟩ := hcons c' h
                rw [hrest] at hr
                obtain ⟨rfl, rfl⟩ := List.cons.inj hr
                exact absurd (h2.mpr (hst.mp h)) (by simp)
              · exact h
        · rw [if_neg hm]
          obtain ⟨b, p, e, k1, k2⟩ := ih path0 hp0
          refine ⟨b, p, e, k1, k2.trans ?_⟩
          constructor
          · exact fun h => .inr (.inr h)
          · rintro (h | ⟨c', h⟩ | h)
            · exact (hn h).elim
            · obtain ⟨r, hr⟩ := hcons c' h
              rw [hrest] at hr
              obtain ⟨rfl, rfl⟩ := List.cons.inj hr
              obtain ⟨_, _, hf, _⟩ := h
              exact absurd ((matches_iff _ _ _).mpr hf) hm
            · exact h

theorem comes_iff {rest : List Sym} {s : Nat} {seen : List Nat} {fds : List Sym} :
    Comes g obey rest s seen fds ↔ ∃ x : Step, x.1 ∈ g.arcs s ∧ Starts g obey rest seen fds x := by
  constructor
  · rintro ⟨l, q, h1, h2, h3, h4⟩
    cases h1 with
    | nil => exact h4.elim
    | cons ha hf hr => exact ⟨_, ha, _, _, hf, hr, h2, h3, h4⟩
  · rintro ⟨x, hx, l, q, hf, hr, h2, h3, h4⟩
    exact ⟨x :: l, q, .cons hx hf hr, h2, h3, h4⟩

theorem lookAmbGo_spec (hg : WF g) : ∀ (n : Nat) (rest : List Sym) (s : Nat) (path path0 : List Nat) (fds : List Sym),
    (∀ c ∈ rest, c ≠ epsilon ∧ isDiacritic c = false) → s < g.states.length → (∀ p ∈ path, p < g.states.length) →
    path.Nodup → s ∉ path → (path0 = path ∨ path0 = s :: path) → (obey = true → sIsValidString fds = true) →
    rest.length * (g.states.length + 1) + (g.states.length - path.length) < n →
      ∃ b p, lookAmbGo g obey n rest s path0 fds = .ok (b, p) ∧ (b = false → path0 = path → p = path) ∧
        (b = true ↔ Comes g obey rest s (s :: path) fds)
  | 0, _, _, _, _, _, _, _, _, _, _, _, _, h => by omega
  | n + 1, rest, s, path, path0, fds, hin, hs, hp, hnd, hsp, hp0, hv, hn => by
    have hnd' := List.nodup_cons.mpr ⟨hsp, hnd⟩
    have hp' : ∀ x ∈ s :: path, x < g.states.length := by
      intro x hx
      rcases List.mem_cons.mp hx with rfl | hx
      · exact hs
      · exact hp x hx
    have hlen : path.length + 1 ≤ g.states.length := by simpa using nodup_le hnd' hp'
    rw [lookAmbGo, List.getElem?_eq_getElem hs]
    dsimp only
    have harcs := arcs_of_get (List.getElem?_eq_getElem hs)
    obtain ⟨b, p, e, h1, h2⟩ := lookAmbLoop_spec (g := g) (obey := obey) (lookAmbGo g obey n) hin hsp hv
      (by
        intro a ha hat fds' hv'
        obtain ⟨b, p, e, h1, h2⟩ := lookAmbGo_spec hg n rest a.target (s :: path) (s :: path) fds' hin
          (hg.targets _ _ ha) hp' hnd' hat (.inl rfl) hv' (by rw [List.length_cons]; omega)
        exact ⟨b, p, e, fun hb => h1 hb rfl, h2⟩)
      (by
        rintro a ha c rest' rfl
        obtain ⟨b, p, e, h1, h2⟩ := lookAmbGo_spec hg n rest' a.target [] [] fds (fun c hc => hin c (by simp [hc]))
          (hg.targets _ _ ha) (by simp) (by simp) (by simp) (.inl rfl) hv (by
            rw [List.length_cons, Nat.add_mul] at hn
            simp only [List.length_nil] at hn ⊢
            omega)
        exact ⟨b, p, e, h2⟩)
      g.states[s] path0 (fun a ha => by rw [harcs]; exact ha) hp0
    exact ⟨b, p, e, h1, by rw [h2, comes_iff, harcs]⟩

end lookAmb

/-! ### The answer in terms of stretches -/

theorem calm_iff_rep : ∀ (l : List Step) (seen : List Nat), calm 0 seen 0 l ↔ ¬ rep seen l
  | [], _ => by simp [calm, rep]
  | (a, none) :: l, seen => by
    rw [calm, rep]
    by_cases h : a.target ∈ seen
    · simp [h]
    · simp [h, calm_iff_rep l]
  | (a, some _) :: l, _ => by rw [calm, rep, calm_iff_rep l]

theorem returns_le {k : Nat} : ∀ (stretch after : List Step) (seen : List Nat) (n : Nat), (∀ x ∈ stretch, x.2 = none) →
    calm k seen n (stretch ++ after) → n ≤ k → n + returns seen stretch ≤ k
  | [], _, _, _, _, _, hn => by simpa [returns] using hn
  | (a, none) :: l, after, seen, n, hs, h, _ => by
    rw [List.cons_append, calm] at h
    rw [returns]
    have := returns_le l after _ _ (fun x hx => hs x (by simp [hx])) h.2 h.1
    dsimp only
    omega
  | (a, some c) :: l, _, _, _, hs, _, _ => by have := hs _ (List.mem_cons_self ..); cases this

theorem returns_mono : ∀ (l : List Step) (seen seen' : List Nat), (∀ x ∈ seen, x ∈ seen') → returns seen l ≤ returns seen' l
  | [], _, _, _ => Nat.le_refl _
  | x :: l, seen, seen', h => by
    rw [returns, returns]
    have := returns_mono l (x.1.target :: seen) (x.1.target :: seen') (by
      intro y hy
      rcases List.mem_cons.mp hy with rfl | hy
      · simp
      · simp [h y hy])
    by_cases hx : x.1.target ∈ seen
    · rw [if_pos hx, if_pos (h _ hx)]; omega
    · rw [if_neg hx]; omega

theorem endState_cons (s : Nat) (x : Step) (l : List Step) : endState s (x :: l) = endState x.1.target l := by
  unfold endState
  cases l with
  | nil => rfl
  | cons y l => rw [List.getLast?_cons_cons]; simp [List.getLast?_eq_some_getLast]

theorem calm_after {k : Nat} : ∀ (before rest : List Step) (s : Nat) (seen : List Nat) (n : Nat), s ∈ seen → n ≤ k →
    calm k seen n (before ++ rest) → ∃ seen' n', endState s before ∈ seen' ∧ n' ≤ k ∧ calm k seen' n' rest
  | [], _, s, seen, n, hs, hn, h => ⟨seen, n, hs, hn, h⟩
  | (a, none) :: l, rest, s, seen, n, _, _, h => by
    rw [List.cons_append, calm] at h
    rw [endState_cons]
    exact calm_after l rest _ _ _ (by simp) h.1 h.2
  | (a, some c) :: l, rest, s, seen, n, _, _, h => by
    rw [List.cons_append, calm] at h
    rw [endState_cons]
    exact calm_after l rest _ _ _ (by simp) (Nat.zero_le _) h

theorem few_iff_calm {k s : Nat} {l : List Step} : FewReturns k s l ↔ calm k [s] 0 l := by
  constructor
  · intro h
    have := calm_of_few (k := k) s l [] [] (by simp) (by simpa using h)
    simpa [endState, returns] using this
  · rintro h before stretch after rfl hs
    rw [List.append_assoc] at h
    obtain ⟨seen', n', h1, h2, h3⟩ := calm_after before _ s _ _ (by simp) (Nat.zero_le _) h
    have h4 := returns_le stretch after seen' n' hs h3 h2
    have h5 := returns_mono stretch [endState s before] seen' (by simpa using h1)
    omega

/-- Looking up `input` is reported infinitely ambiguous exactly if some run that starts at the start state, consumes a
beginning of the input and respects the flags if they are obeyed, comes back to a state within a stretch that consumes
nothing. -/
theorem C59 (g : Graph) (hg : WF g) (input : List Sym) (hin : ∀ c ∈ input, c ≠ epsilon ∧ isDiacritic c = false)
    (obey : Bool) (fuel : Nat) (hf : (input.length + 1) * (g.states.length + 1) ≤ fuel) :
    ∃ b, isLookupInfinitelyAmbiguous fuel g input obey = .ok b ∧
      (b = true ↔ ∃ l q, Run g 0 l q ∧ inputOf l <+: input ∧ (obey = true → sIsValidString (flagsOf l) = true) ∧
        ¬ FewReturns 0 0 l) := by
  obtain ⟨b, p, e, _, h2⟩ := lookAmbGo_spec (obey := obey) hg fuel input 0 [] [0] [] hin hg.nonempty (by simp) (by simp)
    (by simp) (.inr rfl) (fun _ => rfl) (by
      rw [Nat.add_mul] at hf
      simp only [List.length_nil]
      omega)
  refine ⟨b, ?_, h2.trans ?_⟩
  · unfold isLookupInfinitelyAmbiguous
    rw [e]
  · unfold Comes
    simp only [few_iff_calm, calm_iff_rep, not_not, List.nil_append]

/-- If the input is not reported infinitely ambiguous, lookup without limits gives exactly the analyses of the input, even
if no state may be visited twice without consuming input. -/
theorem C59_lookup (g : Graph) (hg : WF g) (input : List Sym) (hin : ∀ c ∈ input, c ≠ epsilon ∧ isDiacritic c = false)
    (obey : Bool) (maxCycles : Option Nat) (fuel fuel' : Nat) (r : List Result)
    (hf : (input.length + 1) * (g.states.length + 1) ≤ fuel)
    (h : isLookupInfinitelyAmbiguous fuel g input obey = .ok false)
    (hr : lookup fuel' g input maxCycles none none obey [] = .ok r) (p : Result) :
    p ∈ r ↔ ∃ l, IsAnalysis g input l p ∧ (obey = true → sIsValidString (flagsOf l) = true) := by
  constructor
  · intro hp
    exact (C25_partial g input maxCycles none none obey [] r fuel' (fun _ c hc => (hin c hc).2) hr p hp (by simp)).1
  · rintro ⟨l, h1, h2⟩
    refine C26_partial g input maxCycles none obey [] r fuel' hin hr l p h1 ?_ h2 (by simp)
    obtain ⟨b, e, hb⟩ := C59 g hg input hin obey fuel hf
    rw [h] at e
    obtain rfl : false = b := by injection e
    obtain ⟨q, f, h3, h4, h5, _⟩ := h1
    have : FewReturns 0 0 l := by
      by_contra hn
      have := hb.mpr ⟨l, q, h3, h5 ▸ List.prefix_rfl, h2, hn⟩
      cases this
    intro b st af e hs
    exact (this b st af e hs).trans (Nat.zero_le _)

example : isLookupInfinitelyAmbiguous 9 loopGraph [['a']] false = .ok true := by decide +kernel

example : isLookupInfinitelyAmbiguous 9 loopGraph [['b']] false = .ok false := by decide +kernel

/-- The start leads to a final state and to a loop from which no final state can be reached. -/
def deadEnd : Graph :=
  { states := [[⟨1, ['a'], ['a'], 0⟩, ⟨2, epsilon, epsilon, 0⟩], [], [⟨2, epsilon, epsilon, 0⟩]], finals := [(1, 0)],
    alphabet := [epsilon, unknown, identity, ['a']] }

/-- An input with one analysis only may be reported infinitely ambiguous: the loop need not lead to the end. -/
theorem C59_dead_end : ∃ g, WF g ∧ isLookupInfinitelyAmbiguous 9 g [['a']] true = .ok true ∧
    ∀ l r, IsAnalysis g [['a']] l r → l = [(⟨1, ['a'], ['a'], 0⟩, some ['a'])] := by
  refine ⟨deadEnd, ⟨by decide, ?_, ?_⟩, by decide +kernel, ?_⟩
  · intro s a ha
    match s, ha with
    | 0, ha => simp [deadEnd, Graph.arcs] at ha; rcases ha with rfl | rfl <;> decide
    | 1, ha => simp [deadEnd, Graph.arcs] at ha
    | 2, ha => simp [deadEnd, Graph.arcs] at ha; subst ha; decide
    | n + 3, ha => simp [deadEnd, Graph.arcs] at ha
  · intro s w h
    match s, h with
    | 0, h => simp [deadEnd, Graph.final, mapGet] at h
    | 1, _ => decide
    | n + 2, h => simp [deadEnd, Graph.final, mapGet] at h
  · rintro l r ⟨q, f, h1, h2, h3, h4⟩
    clear h4
    have hq : q = 1 := by
      match q, h2 with
      | 0, h => simp [deadEnd, Graph.final, mapGet] at h
      | 1, _ => rfl
      | n + 2, h => simp [deadEnd, Graph.final, mapGet] at h
    subst hq
    have stuck : ∀ {l}, ¬ Run deadEnd 2 l 1 := by
      intro l hl
      generalize h2 : 2 = s at hl
      generalize h1 : 1 = t at hl
      induction hl with
      | nil => omega
      | cons ha _ _ ih =>
        subst h2
        simp only [deadEnd, Graph.arcs, List.getElem?_cons_succ, List.getElem?_cons_zero, Option.getD_some,
          List.mem_singleton] at ha
        rw [ha] at ih
        exact ih rfl h1
    cases h1 with
    | cons ha hf hr =>
      rename_i x l
      obtain ⟨a, o⟩ := x
      simp only [deadEnd, Graph.arcs, List.getElem?_cons_zero, Option.getD_some, List.mem_cons, List.not_mem_nil, or_false] at ha
      rcases ha with rfl | rfl
      · have hl : l = [] := by
          cases hr with
          | nil => rfl
          | cons ha _ _ => simp [deadEnd, Graph.arcs] at ha
        subst hl
        cases o with
        | none => simp [inputOf] at h3
        | some c => simp [inputOf] at h3; rw [h3]
      · exact (stuck hr).elim

/-! ## C60: negative epsilon cycles -/

/-- There is a path of epsilon:epsilon transitions from `s` to `t` with weight `w`. -/
def EpsPath (g : Graph) (s : Nat) (w : Int) (t : Nat) : Prop := ∃ l, Path g s l w t ∧ ∀ p ∈ l, p = (epsilon, epsilon)

section neg
variable {g : Graph}

theorem EpsPath.step {s t : Nat} {w : Int} {a : Arc} (h : EpsPath g s w t) (ha : a ∈ g.arcs t) (he : epsEps a = true) :
    EpsPath g s (w + a.weight) a.target := by
  obtain ⟨l, h1, h2⟩ := h
  refine ⟨l ++ [(a.inp, a.out)], h1.append (.single ha), ?_⟩
  unfold epsEps at he
  rw [Bool.and_eq_true, decide_eq_true_iff, decide_eq_true_iff] at he
  intro p hp
  rw [List.mem_append, List.mem_singleton] at hp
  rcases hp with hp | rfl
  · exact h2 p hp
  · rw [he.1, he.2]

/-- A walk that the search follows: it ends when it comes to a state on the way, with a smaller total. -/
def Falls (g : Graph) : (Nat → Option Int) → Int → Nat → List Arc → Prop
  | ws, total, s, [] => ∃ w, ws s = some w ∧ total < w
  | ws, total, s, a :: l => ws s = none ∧ a ∈ g.arcs s ∧ epsEps a = true ∧
      Falls g (fun t => if t = s then some total else ws t) (total + a.weight) a.target l

def Neg (g : Graph) : Prop := ∃ s w, EpsPath g s w s ∧ w < 0

/-- The map agrees with the function. -/
def Agrees (m : List (Nat × Int)) (ws : Nat → Option Int) : Prop := ∀ t, mapGet m t = ws t

theorem negLoop_spec (call : Nat → Int → List (Nat × Int) → Outcome (Bool × List (Nat × Int))) {s : Nat} {total : Int}
    {ws : Nat → Option Int}
    (hcall : ∀ a ∈ g.arcs s, epsEps a = true → ∀ m, Agrees m ws → ∃ b m', call a.target (total + a.weight) m = .ok (b, m') ∧
      (b = true → Neg g) ∧ (b = false → Agrees m' ws ∧ ∀ l, ¬ Falls g ws (total + a.weight) a.target l)) :
    ∀ (as : List Arc) (m : List (Nat × Int)), (∀ a ∈ as, a ∈ g.arcs s) → Agrees m ws →
      ∃ b m', negLoop call total as m = .ok (b, m') ∧ (b = true → Neg g) ∧
        (b = false → Agrees m' ws ∧ ∀ a ∈ as, epsEps a = true → ∀ l, ¬ Falls g ws (total + a.weight) a.target l)
  | [], m, _, hm => ⟨false, m, rfl, by simp, fun _ => ⟨hm, by simp⟩⟩
  | a :: as, m, ha, hm => by
    rw [negLoop]
    by_cases he : epsEps a = true
    · rw [if_pos he]
      obtain ⟨b, m', e, h1, h2⟩ := hcall a (ha a (by simp)) he m hm
      rw [e]
      cases b with
      | true => exact ⟨true, _, rfl, h1, by simp⟩
      | false =>
        dsimp only
        obtain ⟨h3, h4⟩ := h2 rfl
        obtain ⟨b, m'', e, k1, k2⟩ := negLoop_spec call hcall as m' (fun x hx => ha x (by simp [hx])) h3
        refine ⟨b, m'', e, k1, fun hb => ⟨(k2 hb).1, ?_⟩⟩
        intro x hx hxe
        rcases List.mem_cons.mp hx with rfl | hx
        · exact h4
        · exact (k2 hb).2 x hx hxe
    · rw [if_neg he]
      obtain ⟨b, m'', e, k1, k2⟩ := negLoop_spec call hcall as m (fun x hx => ha x (by simp [hx])) hm
      refine ⟨b, m'', e, k1, fun hb => ⟨(k2 hb).1, ?_⟩⟩
      intro x hx hxe
      rcases List.mem_cons.mp hx with rfl | hx
      · exact (he hxe).elim
      · exact (k2 hb).2 x hx hxe

theorem negGo_spec (hg : WF g) : ∀ (n s : Nat) (total : Int) (m : List (Nat × Int)) (ws : Nat → Option Int)
    (keys : List Nat), s < g.states.length → Agrees m ws → (∀ t, (ws t).isSome = true ↔ t ∈ keys) → keys.Nodup →
    (∀ t w, ws t = some w → t < g.states.length ∧ EpsPath g t (total - w) s) →
    g.states.length - keys.length + 1 < n →
      ∃ b m', negGo g n s total m = .ok (b, m') ∧ (b = true → Neg g) ∧
        (b = false → Agrees m' ws ∧ ∀ l, ¬ Falls g ws total s l)
  | 0, _, _, _, _, _, _, _, _, _, _, h => by omega
  | n + 1, s, total, m, ws, keys, hs, hm, hk, hnd, hws, hn => by
    rw [negGo, hm s]
    cases hsw : ws s with
    | some w =>
      dsimp only
      refine ⟨_, m, rfl, ?_, ?_⟩
      · intro h
        rw [decide_eq_true_iff] at h
        exact ⟨s, _, (hws s w hsw).2, h⟩
      · intro h
        rw [decide_eq_false_iff_not] at h
        refine ⟨hm, ?_⟩
        intro l hl
        cases l with
        | nil =>
          obtain ⟨w', h1, h2⟩ := hl
          rw [hsw] at h1
          obtain rfl : w = w' := by injection h1
          omega
        | cons a l =>
          have := hl.1
          rw [hsw] at this; cases this
    | none =>
      dsimp only
      rw [List.getElem?_eq_getElem hs]
      dsimp only
      have harcs := arcs_of_get (List.getElem?_eq_getElem hs)
      have hkey : s ∉ keys := by
        intro h
        have := (hk s).mpr h
        rw [hsw] at this; cases this
      have hkl : keys.length + 1 ≤ g.states.length := by
        have := nodup_le (n := g.states.length) (List.nodup_cons.mpr ⟨hkey, hnd⟩) (by
          intro x hx
          rcases List.mem_cons.mp hx with rfl | hx
          · exact hs
          · have := (hk x).mpr hx
            obtain ⟨w, hw⟩ := Option.isSome_iff_exists.mp this
            exact (hws x w hw).1)
        simpa using this
      have hag : Agrees (mapPut m s total) (fun t => if t = s then some total else ws t) := by
        intro t
        rw [mapGet_put, hm t]
      obtain ⟨b, m', e, h1, h2⟩ := negLoop_spec (g := g) (s := s) (total := total) (negGo g n) (by
        intro a ha he m hm
        refine negGo_spec hg n a.target (total + a.weight) m (fun t => if t = s then some total else ws t) (s :: keys)
          (hg.targets _ _ ha) hm ?_ (List.nodup_cons.mpr ⟨hkey, hnd⟩) ?_ ?_
        · intro t
          by_cases ht : t = s
          · simp [ht]
          · simp [ht, hk t]
        · intro t w hw
          by_cases ht : t = s
          · rw [if_pos ht] at hw
            obtain rfl : total = w := by injection hw
            subst ht
            refine ⟨hs, ?_⟩
            have := EpsPath.step (g := g) ⟨[], .nil t, by simp⟩ ha he
            have e : total + a.weight - total = 0 + a.weight := by omega
            rw [e]; exact this
          · rw [if_neg ht] at hw
            obtain ⟨h1, h2⟩ := hws t w hw
            refine ⟨h1, ?_⟩
            have := h2.step ha he
            have e : total + a.weight - w = total - w + a.weight := by omega
            rw [e]; exact this
        · rw [List.length_cons]; omega) g.states[s] (mapPut m s total) (fun a ha => by rw [harcs]; exact ha) hag
      rw [e]
      cases b with
      | true => exact ⟨true, _, rfl, h1, by simp⟩
      | false =>
        dsimp only
        obtain ⟨h3, h4⟩ := h2 rfl
        refine ⟨false, _, rfl, by simp, fun _ => ⟨?_, ?_⟩⟩
        · intro t
          rw [mapGet_erase, h3 t]
          by_cases ht : t = s
          · rw [if_pos ht, ht, hsw]
          · rw [if_neg ht]; exact if_neg ht
        · intro l hl
          cases l with
          | nil =>
            obtain ⟨w', h1, _⟩ := hl
            rw [hsw] at h1; cases h1
          | cons a l =>
            obtain ⟨_, ha, he, hl⟩ := hl
            rw [harcs] at ha
            exact h4 a ha he l hl

/-- A walk along epsilon transitions, by its transitions. -/
def Walk (g : Graph) : Nat → List Arc → Nat → Prop
  | s, [], t => s = t
  | s, a :: l, t => a ∈ g.arcs s ∧ epsEps a = true ∧ Walk g a.target l t

def total (l : List Arc) : Int := (l.map (·.weight)).sum

theorem walk_of_path {s t : Nat} {w : Int} {l : List (Sym × Sym)} (h : Path g s l w t)
    (he : ∀ p ∈ l, p = (epsilon, epsilon)) : ∃ k, Walk g s k t ∧ total k = w := by
  induction h with
  | nil s => exact ⟨[], rfl, rfl⟩
  | cons ha _ ih =>
    obtain ⟨k, h1, h2⟩ := ih (fun p hp => he p (by simp [hp]))
    rename_i a _ _ _
    have := he _ (List.mem_cons_self ..)
    obtain ⟨e1, e2⟩ := Prod.mk.inj this
    exact ⟨a :: k, ⟨ha, by simp only [epsEps, e1, e2]; rfl, h1⟩, by simp [total] at h2 ⊢; omega⟩

theorem walk_append : ∀ (l l' : List Arc) (s t : Nat), Walk g s (l ++ l') t ↔ ∃ u, Walk g s l u ∧ Walk g u l' t
  | [], l', s, t => by simp [Walk]
  | a :: l, l', s, t => by
    simp only [List.cons_append, Walk, walk_append l l']
    constructor
    · rintro ⟨h1, h2, u, h3, h4⟩; exact ⟨u, ⟨h1, h2, h3⟩, h4⟩
    · rintro ⟨u, ⟨h1, h2, h3⟩, h4⟩; exact ⟨h1, h2, u, h3, h4⟩

theorem walk_end : ∀ {l : List Arc} {s t u : Nat}, Walk g s l t → Walk g s l u → t = u
  | [], _, _, _, h, h' => Eq.trans (Eq.symm h) h'
  | _ :: _, _, _, _, h, h' => walk_end h.2.2 h'.2.2

theorem total_append (l l' : List Arc) : total (l ++ l') = total l + total l' := by simp [total]

/-- A walk that comes to a state of `ws` only at its end, and to no other state twice, is followed. -/
theorem falls_of_walk : ∀ (l : List Arc) (ws : Nat → Option Int) (tot : Int) (s t : Nat) (w : Int), Walk g s l t →
    ws t = some w → tot + total l < w → (l ≠ [] → ws s = none) →
    (∀ l1 l2 u, l = l1 ++ l2 → l1 ≠ [] → l2 ≠ [] → Walk g s l1 u → ws u = none) →
    (∀ l1 l2 l3 u, l = l1 ++ l2 ++ l3 → l2 ≠ [] → l3 ≠ [] → Walk g s l1 u → ¬ Walk g u l2 u) →
      Falls g ws tot s l
  | [], ws, tot, s, t, w, hw, ht, hlt, _, _, _ => by
    obtain rfl : s = t := hw
    exact ⟨w, ht, by simpa [total] using hlt⟩
  | a :: l, ws, tot, s, t, w, ⟨ha, he, hw⟩, ht, hlt, hs, h1, h2 => by
    have hsn := hs (by simp)
    have hts : t ≠ s := fun e => by rw [e, hsn] at ht; cases ht
    refine ⟨hsn, ha, he, falls_of_walk l _ _ _ t w hw (by simp [hts, ht]) ?_ ?_ ?_ ?_⟩
    · simp only [total, List.map_cons, List.sum_cons] at hlt ⊢; omega
    · intro hl
      have e1 := h1 [a] l a.target rfl (by simp) hl ⟨ha, he, rfl⟩
      have e2 : a.target ≠ s := fun e => h2 [] [a] l s rfl (by simp) hl rfl ⟨ha, he, e⟩
      simp [e1, e2]
    · intro l1 l2 u hl hl1 hl2 hu
      subst hl
      have e1 := h1 (a :: l1) l2 u rfl (by simp) hl2 ⟨ha, he, hu⟩
      have e2 : u ≠ s := fun e => h2 [] (a :: l1) l2 s rfl (by simp) hl2 rfl ⟨ha, he, e ▸ hu⟩
      simp [e1, e2]
    · intro l1 l2 l3 u hl hl2 hl3 hu
      subst hl
      exact h2 (a :: l1) l2 l3 u rfl hl2 hl3 ⟨ha, he, hu⟩

/-- If there is a negative cycle, some walk of the search shows it. -/
theorem falls_of_neg {s : Nat} {l : List Arc} (h : Walk g s l s) (hneg : total l < 0) :
    ∃ s l, s < g.states.length ∧ Falls g (fun _ => none) 0 s l := by
  induction hn : l.length using Nat.strongRecOn generalizing l s with
  | _ n ih =>
    by_cases hex : ∃ l1 l2 l3 u, l = l1 ++ l2 ++ l3 ∧ l2 ≠ [] ∧ l1 ++ l3 ≠ [] ∧ Walk g s l1 u ∧ Walk g u l2 u
    · obtain ⟨l1, l2, l3, u, rfl, hl2, hl3, hu, hc⟩ := hex
      have hpos : 0 < l2.length := List.length_pos_iff.mpr hl2
      have hpos' : 0 < (l1 ++ l3).length := List.length_pos_iff.mpr hl3
      simp only [List.length_append] at hn hpos'
      by_cases h2 : total l2 < 0
      · exact ih l2.length (by omega) hc h2 rfl
      · have hrest : Walk g s (l1 ++ l3) s := by
          obtain ⟨v, hv, h3⟩ := (walk_append _ _ _ _).mp h
          obtain ⟨v', hv', h2'⟩ := (walk_append _ _ _ _).mp hv
          obtain rfl := walk_end hv' hu
          obtain rfl := walk_end h2' hc
          exact (walk_append _ _ _ _).mpr ⟨_, hu, h3⟩
        refine ih (l1 ++ l3).length (by simp; omega) hrest ?_ rfl
        rw [total_append, total_append] at hneg
        rw [total_append]
        omega
    · cases l with
      | nil => simp [total] at hneg
      | cons a l =>
        obtain ⟨ha, he, hw⟩ := h
        have hs : s < g.states.length := by
          by_contra hlt
          simp [Graph.arcs, List.getElem?_eq_none (not_lt.mp hlt)] at ha
        refine ⟨s, a :: l, hs, rfl, ha, he, ?_⟩
        refine falls_of_walk l _ _ _ s 0 hw (by simp) ?_ ?_ ?_ ?_
        · simp only [total, List.map_cons, List.sum_cons] at hneg ⊢; omega
        · intro hl
          have : a.target ≠ s := fun e => hex ⟨[], [a], l, s, rfl, by simp, by simpa using hl, rfl, ha, he, e⟩
          simp [this]
        · intro l1 l2 u hl hl1 hl2 hu
          subst hl
          have : u ≠ s := fun e => hex ⟨[], a :: l1, l2, s, rfl, by simp, by simpa using hl2, rfl, ha, he, e ▸ hu⟩
          simp [this]
        · intro l1 l2 l3 u hl hl2 hl3 hu hc
          subst hl
          exact hex ⟨a :: l1, l2, l3, u, rfl, hl2, by simp, ⟨ha, he, hu⟩, hc⟩

theorem negAll_spec (hg : WF g) {fuel : Nat} (hf : g.states.length + 1 < fuel) : ∀ (ss : List Nat) (m : List (Nat × Int)),
    (∀ s ∈ ss, s < g.states.length) → Agrees m (fun _ => none) →
      ∃ b, negAll fuel g ss m = .ok b ∧ (b = true → Neg g) ∧
        (b = false → ∀ s ∈ ss, ∀ l, ¬ Falls g (fun _ => none) 0 s l)
  | [], _, _, _ => ⟨false, rfl, by simp, by simp⟩
  | s :: ss, m, hs, hm => by
    rw [negAll]
    obtain ⟨b, m', e, h1, h2⟩ := negGo_spec hg fuel s 0 m (fun _ => none) [] (hs s (by simp)) hm (by simp) (by simp)
      (by simp) (by simpa using hf)
    rw [e]
    cases b with
    | true => exact ⟨true, rfl, h1, by simp⟩
    | false =>
      dsimp only
      obtain ⟨h3, h4⟩ := h2 rfl
      obtain ⟨b, e, k1, k2⟩ := negAll_spec hg hf ss m' (fun x hx => hs x (by simp [hx])) h3
      refine ⟨b, e, k1, fun hb => ?_⟩
      intro x hx
      rcases List.mem_cons.mp hx with rfl | hx
      · exact h4
      · exact k2 hb x hx

end neg

/-- The answer is yes exactly if epsilon:epsilon transitions form a cycle whose weight is negative. -/
theorem C60 (g : Graph) (hg : WF g) (fuel : Nat) (hf : g.states.length + 1 < fuel) :
    ∃ b, hasNegativeEpsilonCycles fuel g = .ok b ∧ (b = true ↔ ∃ s w, EpsPath g s w s ∧ w < 0) := by
  unfold hasNegativeEpsilonCycles
  have hmax : g.maxState + 1 = g.states.length := by
    have := hg.nonempty
    unfold Graph.maxState; omega
  split_ifs with hany
  · obtain ⟨b, e, h1, h2⟩ := negAll_spec hg hf (List.range (g.maxState + 1)) [] (by
      intro s hs; rw [hmax] at hs; exact List.mem_range.mp hs) (fun _ => rfl)
    refine ⟨b, e, h1, ?_⟩
    rintro ⟨s, w, ⟨l, hp, he⟩, hw⟩
    obtain ⟨k, hk, rfl⟩ := walk_of_path hp he
    obtain ⟨s, l, hs, hf⟩ := falls_of_neg hk hw
    cases b with
    | true => rfl
    | false => exact (h2 rfl s (by rw [hmax]; exact List.mem_range.mpr hs) l hf).elim
  · refine ⟨false, rfl, by simp, ?_⟩
    rintro ⟨s, w, ⟨l, hp, he⟩, hw⟩
    obtain ⟨k, hk, rfl⟩ := walk_of_path hp he
    refine absurd hw (not_lt.mpr ?_)
    have hall : ∀ s, ∀ a ∈ g.arcs s, epsEps a = true → 0 ≤ a.weight := by
      intro s a ha he
      by_contra hlt
      apply hany
      rw [List.any_eq_true]
      unfold Graph.arcs at ha
      cases hg : g.states[s]? with
      | none => rw [hg] at ha; simp at ha
      | some as =>
        rw [hg] at ha
        refine ⟨as, List.mem_of_getElem? hg, List.any_eq_true.mpr ⟨a, ha, ?_⟩⟩
        rw [he]
        simpa using hlt
    have : ∀ (k : List Arc) (s t : Nat), Walk g s k t → 0 ≤ total k := by
      intro k
      induction k with
      | nil => intro s t _; simp [total]
      | cons a k ih =>
        rintro s t ⟨ha, he, h⟩
        have h1 := hall s a ha he
        have h2 := ih _ _ h
        simp only [total, List.map_cons, List.sum_cons] at h2 ⊢
        omega
    exact this k _ _ hk

/-- A cycle of weight -1 through two states, of which one transition is positive. -/
def cycleGraph : Graph :=
  { states := [[⟨1, epsilon, epsilon, 2⟩], [⟨0, epsilon, epsilon, -3⟩]], finals := [(1, 0)],
    alphabet := [epsilon, unknown, identity] }

example : WF cycleGraph ∧ hasNegativeEpsilonCycles 4 cycleGraph = .ok true := by
  refine ⟨⟨by decide, ?_, ?_⟩, by decide +kernel⟩
  · intro s a ha
    match s, ha with
    | 0, ha => simp [cycleGraph, Graph.arcs] at ha; subst ha; decide
    | 1, ha => simp [cycleGraph, Graph.arcs] at ha; subst ha; decide
    | n + 2, ha => simp [cycleGraph, Graph.arcs] at ha
  · intro s w h
    match s, h with
    | 0, h => simp [cycleGraph, Graph.final, mapGet] at h
    | 1, _ => decide
    | n + 2, h => simp [cycleGraph, Graph.final, mapGet] at h

end Hfst.Basic
