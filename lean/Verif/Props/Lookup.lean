import Verif.Model.Lookup
import Verif.Spec.Lookup
import Mathlib.Tactic.SplitIfs
import Mathlib.Tactic.Tauto
import Mathlib.Tactic.Linarith
import Mathlib.Data.List.Nodup
import Mathlib.Data.List.TakeWhile
import Mathlib.Data.List.Perm.Subperm

/-!
# C25, C26, C27: lookup
-/
namespace Hfst.Basic
open Hfst.Flags

/-! ## Runs -/

theorem Run.append {g : Graph} {s t q : Nat} {l l' : List Step} (h : Run g s l t) (h' : Run g t l' q) :
    Run g s (l ++ l') q := by
  induction h with
  | nil s => exact h'
  | cons h1 h2 _ ih => exact .cons h1 h2 (ih h')

theorem Run.snoc {g : Graph} {s t : Nat} {l : List Step} {x : Step} (h : Run g s l t) (hx : x.1 ∈ g.arcs t)
    (hf : Fits g.alphabet x) : Run g s (l ++ [x]) x.1.target :=
  h.append (.cons hx hf (.nil _))

theorem inputOf_append (l l' : List Step) : inputOf (l ++ l') = inputOf l ++ inputOf l' := List.filterMap_append ..

theorem weightOf_append (l l' : List Step) : weightOf (l ++ l') = weightOf l + weightOf l' := by
  simp [weightOf]

theorem flagsOf_append (l l' : List Step) : flagsOf (l ++ l') = flagsOf l ++ flagsOf l' := by
  simp [flagsOf]

theorem sflags_run_append : ∀ (a b : List Str) (t : SFlags), t.run (a ++ b) = true → t.run a = true
  | [], _, _, _ => rfl
  | x :: a, b, t, h => by
    rw [List.cons_append, SFlags.run] at h
    rw [SFlags.run]
    split_ifs at h ⊢
    exact sflags_run_append a b _ h

theorem valid_prefix {a b : List Str} (h : sIsValidString (a ++ b) = true) : sIsValidString a = true :=
  sflags_run_append a b _ h

theorem special_ne : identity ≠ unknown ∧ identity ≠ epsilon ∧ unknown ≠ epsilon ∧
    isDiacritic identity = false ∧ isDiacritic unknown = false ∧ isDiacritic epsilon = false := by decide +kernel

/-- The step that is taken when a transition is followed. -/
theorem step_of_possible {al rest : List Sym} {fds : Option (List Sym)} {a : Arc} {consumed : Bool} {p : Sym × Sym}
    (h : isPossible al rest fds a = some consumed) (hp : arcPair rest a = some p) :
    ∃ x : Step, x.1 = a ∧ Fits al x ∧ shown x = p ∧
      ((consumed = true ∧ ∃ c r, rest = c :: r ∧ x.2 = some c) ∨
        (consumed = false ∧ x.2 = none ∧ isFree fds a = true)) := by
  obtain ⟨i1, i2, i3, d1, d2, d3⟩ := special_ne
  have free : isFree fds a = true → a.inp ≠ identity ∧ a.inp ≠ unknown ∧ (a.inp = epsilon ∨ isDiacritic a.inp = true) := by
    intro hf
    unfold isFree at hf
    split_ifs at hf with h1 h2
    · exact ⟨by rw [h1]; exact i2.symm, by rw [h1]; exact i3.symm, .inl h1⟩
    · exact ⟨fun e => (by rw [e, d1] at h2; exact absurd h2 (by decide)),
        fun e => (by rw [e, d2] at h2; exact absurd h2 (by decide)), .inr h2⟩
  have notConsumed : isFree fds a = true → consumed = false → ∃ x : Step, x.1 = a ∧ Fits al x ∧ shown x = p ∧
      ((consumed = true ∧ ∃ c r, rest = c :: r ∧ x.2 = some c) ∨
        (consumed = false ∧ x.2 = none ∧ isFree fds a = true)) := by
    intro hf hc
    obtain ⟨n1, n2, n3⟩ := free hf
    unfold arcPair at hp
    rw [if_neg n1, if_neg n2] at hp
    cases hp
    exact ⟨(a, none), rfl, n3, rfl, .inr ⟨hc, rfl, hf⟩⟩
  unfold isPossible at h
  split at h
  · split_ifs at h with hf
    cases h
    exact notConsumed hf rfl
  · rename_i c r
    split_ifs at h with h1 hf
    · cases h
      refine ⟨(a, some c), rfl, h1, ?_, .inl ⟨rfl, c, r, rfl, rfl⟩⟩
      unfold arcPair at hp
      unfold shown
      dsimp only
      split_ifs at hp with h2 h3
      · cases hp; rw [if_pos h2]
      · cases hp; rw [if_neg h2]
      · cases hp
        rw [if_neg h2]
        rcases h1 with h1 | h1
        · rw [h1]
        · exact (h1.1.elim h2 h3).elim
    · cases h
      exact notConsumed hf rfl

/-! ## C25: every result is an analysis -/

section sound
variable {g : Graph} {k : Nat} {maxW : Option Int} {maxN : Option Nat} {input : List Sym} {obey : Bool}

/-- What the call of `lookup` for one state may assume. -/
structure Reached (g : Graph) (input : List Sym) (obey : Bool) (state : Nat) (rest : List Sym) (path : Result)
    (fds : Option (List Sym)) : Prop where
  run : ∃ pre, Run g 0 pre state ∧ inputOf pre ++ rest = input ∧ path = (weightOf pre, pre.map shown) ∧
    fds = (if obey then some (flagsOf pre) else none) ∧ (obey = true → sIsValidString (flagsOf pre) = true)

/-- A genuine result. -/
def Genuine (g : Graph) (input : List Sym) (obey : Bool) (maxW : Option Int) (r : Result) : Prop :=
  (∃ l, IsAnalysis g input l r ∧ (obey = true → sIsValidString (flagsOf l) = true)) ∧ ∀ m, maxW = some m → r.1 ≤ m

theorem arcs_of_get {g : Graph} {s : Nat} {l : List Arc} (h : g.states[s]? = some l) : g.arcs s = l := by
  simp [Graph.arcs, h]

theorem reached_step (hin : obey = true → ∀ c ∈ input, isDiacritic c = false) {state : Nat} {rest : List Sym} {path : Result}
    {fds : Option (List Sym)} (hr : Reached g input obey state rest path fds) {a : Arc} (ha : a ∈ g.arcs state)
    {consumed : Bool} {p : Sym × Sym} (h : isPossible g.alphabet rest fds a = some consumed)
    (hp : arcPair rest a = some p) :
    Reached g input obey a.target (if consumed then rest.tail else rest) (pushPath path p a.weight) (pushFlag fds p) := by
  obtain ⟨pre, h1, h2, h3, h4, h5⟩ := hr.run
  obtain ⟨x, rfl, hf, hs, hx⟩ := step_of_possible h hp
  have hfl : flagsOf [x] = if isDiacritic p.1 then [p.1] else [] := by
    simp only [flagsOf, List.map_cons, List.map_nil, hs, List.filter_cons, List.filter_nil]
  refine ⟨pre ++ [x], h1.snoc ha hf, ?_, ?_, ?_, ?_⟩
  · rcases hx with ⟨hc, c, r, hr, hxc⟩ | ⟨hc, hxn, _⟩
    · rw [if_pos hc, inputOf_append, hr, ← h2, hr]
      simp [inputOf, hxc]
    · rw [hc, inputOf_append, ← h2]
      simp [inputOf, hxn]
  · rw [weightOf_append, List.map_append]
    simp [pushPath, h3, hs, weightOf]
  · rw [flagsOf_append, hfl, h4]
    unfold pushFlag
    cases obey
    · rfl
    · simp only [if_true, Option.map_some]
      split_ifs <;> simp
  · intro ho
    rw [flagsOf_append, hfl]
    rcases hx with ⟨hc, c, r, hr, hxc⟩ | ⟨hc, hxn, hfree⟩
    · have hpc : p.1 = c := by
        rw [← hs]
        obtain ⟨xa, xc⟩ := x
        dsimp only at hxc
        subst hxc; rfl
      have : isDiacritic p.1 = false := by
        rw [hpc]; exact hin ho c (by rw [← h2, hr]; simp)
      rw [this]
      simpa using h5 ho
    · have hpi : p.1 = x.1.inp := by
        rw [← hs]
        obtain ⟨xa, xc⟩ := x
        dsimp only at hxn
        subst hxn; rfl
      cases hd : isDiacritic p.1 with
      | false => simpa using h5 ho
      | true =>
        rw [hpi] at hd ⊢
        unfold isFree at hfree
        rw [h4] at hfree
        simp only [ho, if_true] at hfree
        split_ifs at hfree with he
        · rw [he, special_ne.2.2.2.2.2] at hd; cases hd
        · simpa using hfree

theorem loop_sound (hin : obey = true → ∀ c ∈ input, isDiacritic c = false) (call : LookupFn)
    (hcall : ∀ state rest path eh fds results r, Reached g input obey state rest path fds →
      call state rest path eh fds results = .ok r → ∀ p ∈ r, p ∈ results ∨ Genuine g input obey maxW p)
    {state : Nat} {rest : List Sym} {path : Result} {fds : Option (List Sym)}
    (hr : Reached g input obey state rest path fds) :
    ∀ (as : List Arc) (eh : Handler) (results r : List Result), (∀ a ∈ as, a ∈ g.arcs state) →
      lookupLoop call g.alphabet k state rest path fds as eh results = .ok r →
        ∀ p ∈ r, p ∈ results ∨ Genuine g input obey maxW p
  | [], _, results, r, _, h => by cases h; exact fun p hp => .inl hp
  | a :: as, eh, results, r, hm, h => by
    rw [lookupLoop] at h
    split at h
    · exact loop_sound hin call hcall hr as _ _ _ (fun b hb => hm b (by simp [hb])) h
    · rename_i consumed hpos
      split at h
      · cases h
      · rename_i p hp
        dsimp only at h
        split at h
        · rename_i res' hc
          have h1 := hcall _ _ _ _ _ _ _ (reached_step hin hr (hm a (by simp)) hpos hp) hc
          have h2 := loop_sound hin call hcall hr as _ _ _ (fun b hb => hm b (by simp [hb])) h
          intro q hq
          rcases h2 q hq with h3 | h3
          · exact h1 q h3
          · exact .inr h3
        · cases h
        · cases h

theorem mem_setInsert {α : Type} [DecidableEq α] {s : List α} {x y : α} : y ∈ setInsert s x ↔ y = x ∨ y ∈ s := by
  unfold setInsert
  split_ifs with h
  · constructor
    · exact .inr
    · rintro (rfl | h') <;> assumption
  · simp

theorem addResult_sound {results : List Result} {path : Result} {f : Int} {p : Result}
    (h : p ∈ addResult results path f maxW) :
    p ∈ results ∨ (p = (path.1 + f, path.2) ∧ ∀ m, maxW = some m → p.1 ≤ m) := by
  unfold addResult at h
  split at h
  · rw [mem_setInsert] at h
    rcases h with rfl | h
    · exact .inr ⟨rfl, fun m hm => by cases hm⟩
    · exact .inl h
  · split_ifs at h with hle
    · exact .inl h
    · rw [mem_setInsert] at h
      rcases h with rfl | h
      · refine .inr ⟨rfl, fun m hm => ?_⟩
        cases hm; exact not_lt.mp hle
      · exact .inl h

theorem go_sound (hin : obey = true → ∀ c ∈ input, isDiacritic c = false) : ∀ (n : Nat) (state : Nat) (rest : List Sym)
    (path : Result) (eh : Handler) (fds : Option (List Sym)) (results r : List Result),
    Reached g input obey state rest path fds →
      lookupGo g k maxW maxN n state rest path eh fds results = .ok r →
        ∀ p ∈ r, p ∈ results ∨ Genuine g input obey maxW p
  | 0, _, _, _, _, _, _, _, _, h => by cases h
  | n + 1, state, rest, path, eh, fds, results, r, hr, h => by
    rw [lookupGo.eq_def] at h
    dsimp only at h
    split at h
    · cases h; exact fun p hp => .inl hp
    · split at h
      · cases h; exact fun p hp => .inl hp
      · split at h
        · cases h; exact fun p hp => .inl hp
        · split at h
          · cases h
          · rename_i arcs harcs
            have h1 := loop_sound hin _ (go_sound hin n) hr arcs _ _ _
              (fun a ha => by rw [arcs_of_get harcs]; exact ha) h
            intro p hp
            rcases h1 p hp with h2 | h2
            · split at h2
              · rename_i hrest
                split at h2
                · rename_i w hw
                  rcases addResult_sound h2 with h3 | ⟨h3, h4⟩
                  · exact .inl h3
                  · obtain ⟨pre, k1, k2, k3, k4, k5⟩ := hr.run
                    refine .inr ⟨⟨pre, ⟨state, w, k1, hw, ?_, ?_⟩, k5⟩, h4⟩
                    · rw [← k2, hrest, List.append_nil]
                    · rw [h3, k3]
                · exact .inl h2
              · exact .inl h2
            · exact .inr h2

theorem reached_init : Reached g input obey 0 input (0, []) (if obey then some [] else none) :=
  ⟨⟨[], .nil 0, rfl, rfl, by cases obey <;> rfl, fun _ => rfl⟩⟩

end sound

/-- Every result of a lookup that was not there before is an analysis of the input: what an accepting run that consumes
exactly the input shows, with the weight of the run; if flags are obeyed, the flags on the run are a valid sequence; the
weight is within the limit.  Missing: flags in the input itself, see `C25_flag_input_violated`. -/
theorem C25_partial (g : Graph) (input : List Sym) (maxCycles : Option Nat) (maxW : Option Int) (maxN : Option Nat)
    (obey : Bool) (before r : List Result) (fuel : Nat) (hin : obey = true → ∀ c ∈ input, isDiacritic c = false)
    (h : lookup fuel g input maxCycles maxW maxN obey before = .ok r) (p : Result) (hp : p ∈ r) (hb : p ∉ before) :
    (∃ l, IsAnalysis g input l p ∧ (obey = true → sIsValidString (flagsOf l) = true)) ∧
      ∀ m, maxW = some m → p.1 ≤ m :=
  (go_sound hin fuel 0 input _ _ _ before r reached_init h p hp).resolve_left hb

/-! ### The result limit -/

section limit
variable {g : Graph} {k : Nat} {maxW : Option Int} {n : Nat}

theorem length_addResult (results : List Result) (path : Result) (f : Int) :
    (addResult results path f maxW).length ≤ results.length + 1 := by
  unfold addResult setInsert
  split <;> split_ifs <;> simp

theorem loop_limit (m : Nat) (call : LookupFn)
    (hcall : ∀ state rest path eh fds results r, results.length ≤ m → call state rest path eh fds results = .ok r →
      r.length ≤ m) (al : List Sym) (state : Nat) (rest : List Sym) (path : Result) (fds : Option (List Sym)) :
    ∀ (as : List Arc) (eh : Handler) (results r : List Result), results.length ≤ m →
      lookupLoop call al k state rest path fds as eh results = .ok r → r.length ≤ m
  | [], _, _, _, hl, h => by cases h; exact hl
  | a :: as, eh, results, r, hl, h => by
    rw [lookupLoop] at h
    split at h
    · exact loop_limit m call hcall al state rest path fds as _ _ _ hl h
    · split at h
      · cases h
      · dsimp only at h
        split at h
        · rename_i res' hc
          exact loop_limit m call hcall al state rest path fds as _ _ _ (hcall _ _ _ _ _ _ _ hl hc) h
        · cases h
        · cases h

theorem go_limit (m : Nat) : ∀ (fuel state : Nat) (rest : List Sym) (path : Result) (eh : Handler)
    (fds : Option (List Sym)) (results r : List Result), results.length ≤ m →
      lookupGo g k maxW (some m) fuel state rest path eh fds results = .ok r → r.length ≤ m
  | 0, _, _, _, _, _, _, _, _, h => by cases h
  | fuel + 1, state, rest, path, eh, fds, results, r, hl, h => by
    rw [lookupGo.eq_def] at h
    dsimp only at h
    split at h
    · cases h; exact hl
    · split at h
      · cases h; exact hl
      · split at h
        · cases h; exact hl
        · rename_i hlim
          have hlt : results.length < m := by simpa [overNumber] using hlim
          split at h
          · cases h
          · refine loop_limit m _ (go_limit m fuel) _ _ _ _ _ _ _ _ _ ?_ h
            split
            · split
              · have := length_addResult (maxW := maxW) results path (by assumption)
                omega
              · exact hl
            · exact hl

end limit

/-- A limit on the number of results is kept (if it is not exceeded before). -/
theorem C25_limit (g : Graph) (input : List Sym) (maxCycles : Option Nat) (maxW : Option Int) (m : Nat)
    (obey : Bool) (before r : List Result) (fuel : Nat) (hb : before.length ≤ m)
    (h : lookup fuel g input maxCycles maxW (some m) obey before = .ok r) : r.length ≤ m :=
  go_limit m fuel _ _ _ _ _ _ _ hb h

/-! ## C26: every analysis is found -/

theorem push_push (h : Handler) (s : Nat) : (h.push s).push s = h.push s := by
  unfold Handler.push
  split_ifs <;> simp_all

section complete
variable {g : Graph} {k : Nat} {maxW : Option Int}

theorem loop_mono (call : LookupFn)
    (hcall : ∀ state rest path eh fds results r, call state rest path eh fds results = .ok r → ∀ p ∈ results, p ∈ r)
    (al : List Sym) (state : Nat) (rest : List Sym) (path : Result) (fds : Option (List Sym)) :
    ∀ (as : List Arc) (eh : Handler) (results r : List Result),
      lookupLoop call al k state rest path fds as eh results = .ok r → ∀ p ∈ results, p ∈ r
  | [], _, _, _, h => by cases h; exact fun p hp => hp
  | a :: as, eh, results, r, h => by
    rw [lookupLoop] at h
    split at h
    · exact loop_mono call hcall al state rest path fds as _ _ _ h
    · split at h
      · cases h
      · dsimp only at h
        split at h
        · rename_i res' hc
          exact fun p hp => loop_mono call hcall al state rest path fds as _ _ _ h p (hcall _ _ _ _ _ _ _ hc p hp)
        · cases h
        · cases h

theorem mem_addResult {results : List Result} {path : Result} {f : Int} {p : Result} (h : p ∈ results) :
    p ∈ addResult results path f maxW := by
  unfold addResult
  split
  · exact mem_setInsert.mpr (.inr h)
  · split_ifs
    · exact h
    · exact mem_setInsert.mpr (.inr h)

theorem go_mono (maxN : Option Nat) : ∀ (fuel state : Nat) (rest : List Sym) (path : Result) (eh : Handler)
    (fds : Option (List Sym)) (results r : List Result),
      lookupGo g k maxW maxN fuel state rest path eh fds results = .ok r → ∀ p ∈ results, p ∈ r
  | 0, _, _, _, _, _, _, _, h => by cases h
  | fuel + 1, state, rest, path, eh, fds, results, r, h => by
    rw [lookupGo.eq_def] at h
    dsimp only at h
    split at h
    · cases h; exact fun p hp => hp
    · split at h
      · cases h; exact fun p hp => hp
      · split at h
        · cases h; exact fun p hp => hp
        · split at h
          · cases h
          · intro p hp
            refine loop_mono _ (go_mono maxN fuel) _ _ _ _ _ _ _ _ _ h p ?_
            split
            · split
              · exact mem_addResult hp
              · exact hp
            · exact hp

/-- Every transition that can be followed is followed. -/
theorem loop_calls (call : LookupFn)
    (hcall : ∀ state rest path eh fds results r, call state rest path eh fds results = .ok r → ∀ p ∈ results, p ∈ r)
    (al : List Sym) (state : Nat) (rest : List Sym) (path : Result) (fds : Option (List Sym)) {a : Arc} {consumed : Bool}
    {p : Sym × Sym} (hpos : isPossible al rest fds a = some consumed) (hp : arcPair rest a = some p) :
    ∀ (as : List Arc) (eh : Handler) (results r : List Result), a ∈ as →
      lookupLoop call al k state rest path fds as eh results = .ok r →
        ∃ results1 r1, call a.target (if consumed then rest.tail else rest) (pushPath path p a.weight)
            (if consumed then Handler.new k else eh.push state) (pushFlag fds p) results1 = .ok r1 ∧ ∀ x ∈ r1, x ∈ r
  | [], _, _, _, h, _ => by simp at h
  | b :: as, eh, results, r, hm, h => by
    rw [lookupLoop] at h
    by_cases hba : b = a
    · subst hba
      rw [hpos] at h
      dsimp only at h
      rw [hp] at h
      dsimp only at h
      split at h
      · rename_i res' hc
        refine ⟨results, res', ?_, loop_mono call hcall al state rest path fds as _ _ _ h⟩
        rw [← hc]
        cases consumed <;> rfl
      · cases h
      · cases h
    · have hm' : a ∈ as := by
        rcases List.mem_cons.mp hm with e | e
        · exact absurd e.symm hba
        · exact e
      split at h
      · exact loop_calls call hcall al state rest path fds hpos hp as _ _ _ hm' h
      · rename_i cons' hpos'
        split at h
        · cases h
        · dsimp only at h
          split at h
          · obtain ⟨r1, r2, h1, h2⟩ := loop_calls call hcall al state rest path fds hpos hp as _ _ _ hm' h
            refine ⟨r1, r2, ?_, h2⟩
            rw [← h1]
            cases cons' with
            | true => rfl
            | false => simp [push_push]
          · cases h
          · cases h

/-- `FewReturns` step by step: `seen` are the states of the present stretch, `n` its returns so far. -/
def calm (k : Nat) : List Nat → Nat → List Step → Prop
  | _, _, [] => True
  | seen, n, (a, none) :: l =>
    n + (if a.target ∈ seen then 1 else 0) ≤ k ∧
      calm k (a.target :: seen) (n + if a.target ∈ seen then 1 else 0) l
  | _, _, (a, some _) :: l => calm k [a.target] 0 l

theorem returns_append : ∀ (l l' : List Step) (seen : List Nat),
    returns seen (l ++ l') = returns seen l + returns ((l.map (·.1.target)).reverse ++ seen) l'
  | [], l', seen => by simp [returns]
  | x :: l, l', seen => by
    rw [List.cons_append, returns, returns, returns_append l l']
    simp [Nat.add_assoc]

theorem endState_append (s : Nat) (l : List Step) (x : Step) : endState s (l ++ [x]) = x.1.target := by
  simp [endState]

theorem calm_of_few (s : Nat) : ∀ (l before stretch : List Step), (∀ x ∈ stretch, x.2 = none) →
    FewReturns k s (before ++ stretch ++ l) →
      calm k ((stretch.map (·.1.target)).reverse ++ [endState s before]) (returns [endState s before] stretch) l
  | [], _, _, _, _ => trivial
  | (a, none) :: l, before, stretch, hs, hf => by
    have hs' : ∀ x ∈ stretch ++ [(a, none)], x.2 = none := by
      intro x hx
      rw [List.mem_append, List.mem_singleton] at hx
      rcases hx with hx | rfl
      · exact hs x hx
      · rfl
    have e : returns [endState s before] (stretch ++ [(a, none)]) = returns [endState s before] stretch +
        if a.target ∈ (stretch.map (·.1.target)).reverse ++ [endState s before] then 1 else 0 := by
      rw [returns_append]; simp [returns]
    have hf' : FewReturns k s (before ++ (stretch ++ [(a, none)]) ++ l) := by
      have : before ++ (stretch ++ [(a, none)]) ++ l = before ++ stretch ++ (a, none) :: l := by simp
      rw [this]; exact hf
    have h1 := hf' before (stretch ++ [(a, none)]) l rfl hs'
    have h2 := calm_of_few s l before (stretch ++ [(a, none)]) hs' hf'
    rw [calm, ← e]
    refine ⟨h1, ?_⟩
    simpa using h2
  | (a, some c) :: l, before, stretch, hs, hf => by
    have hf' : FewReturns k s ((before ++ stretch ++ [(a, some c)]) ++ [] ++ l) := by
      have : (before ++ stretch ++ [(a, some c)]) ++ [] ++ l = before ++ stretch ++ (a, some c) :: l := by simp
      rw [this]; exact hf
    have := calm_of_few s l (before ++ stretch ++ [(a, some c)]) [] (by simp) hf'
    rw [calm]
    rw [endState_append] at this
    simpa [returns] using this

/-- The handler is never stricter than the count of returns. -/
structure Lenient (k : Nat) (seen : List Nat) (n : Nat) (eh : Handler) : Prop where
  path : ∀ s ∈ eh.path, s ∈ seen
  cycles : eh.cycles ≤ n
  max : eh.max = k

theorem push_subset {eh : Handler} {s t : Nat} (h : t ∈ (eh.push s).path) : t = s ∨ t ∈ eh.path := by
  unfold Handler.push at h
  split_ifs at h
  · exact .inr h
  · simp only [List.mem_append, List.mem_singleton] at h
    tauto

theorem push_max (eh : Handler) (s : Nat) : (eh.push s).max = eh.max ∧ (eh.push s).cycles = eh.cycles := by
  unfold Handler.push
  split_ifs <;> exact ⟨rfl, rfl⟩

theorem lenient_continue {seen : List Nat} {n s : Nat} {eh : Handler} (h : Lenient k seen n eh)
    (hn : n + (if s ∈ seen then 1 else 0) ≤ k) :
    (eh.canContinue s).1 = true ∧
      Lenient k (s :: seen) (n + if s ∈ seen then 1 else 0) ((eh.canContinue s).2.push s) := by
  unfold Handler.canContinue
  by_cases hs : s ∈ eh.path
  · rw [if_pos hs]
    rw [if_pos (h.path s hs)] at hn ⊢
    have := h.cycles
    refine ⟨by simp [h.max]; omega, ?_, ?_, ?_⟩
    · intro t ht
      rcases push_subset ht with rfl | ht
      · simp
      · rw [List.mem_append, List.mem_singleton] at ht
        rcases ht with ht | rfl
        · exact List.mem_cons_of_mem _ (h.path t (List.takeWhile_subset _ ht))
        · simp
    · rw [(push_max _ _).2]; dsimp only; omega
    · rw [(push_max _ _).1]; exact h.max
  · rw [if_neg hs]
    refine ⟨rfl, ?_, ?_, ?_⟩
    · intro t ht
      rcases push_subset ht with rfl | ht
      · simp
      · exact List.mem_cons_of_mem _ (h.path t ht)
    · rw [(push_max _ _).2]; have := h.cycles; dsimp only; omega
    · rw [(push_max _ _).1]; exact h.max

theorem weightOf_nonneg (hw : ∀ s, ∀ a ∈ g.arcs s, 0 ≤ a.weight) {s q : Nat} {l : List Step} (h : Run g s l q) :
    0 ≤ weightOf l := by
  induction h with
  | nil => simp [weightOf]
  | cons h1 _ _ ih => simp only [weightOf, List.map_cons, List.sum_cons] at ih ⊢; have := hw _ _ h1; omega

theorem possible_of_fits {al rest : List Sym} {fds : Option (List Sym)} {x : Step} (hf : Fits al x)
    (hin : ∀ c ∈ rest, c ≠ epsilon ∧ isDiacritic c = false) (hrest : ∀ c, x.2 = some c → ∃ r, rest = c :: r)
    (hfl : x.2 = none → isDiacritic x.1.inp = true → ∀ v, fds = some v → sIsValidString (v ++ [x.1.inp]) = true) :
    isPossible al rest fds x.1 = some x.2.isSome ∧ arcPair rest x.1 = some (shown x) := by
  obtain ⟨i1, i2, i3, d1, d2, d3⟩ := special_ne
  obtain ⟨a, oc⟩ := x
  cases oc with
  | none =>
    have hfree : isFree fds a = true := by
      unfold isFree
      split_ifs with h1 h2
      · rfl
      · split
        · rfl
        · rename_i v
          exact hfl rfl h2 v rfl
      · rcases hf with hf | hf
        · exact absurd hf h1
        · exact absurd hf h2
    have n1 : a.inp ≠ identity := by
      rintro e
      rcases hf with hf | hf
      · exact i2 (e.symm.trans hf)
      · rw [e, d1] at hf; cases hf
    have n2 : a.inp ≠ unknown := by
      rintro e
      rcases hf with hf | hf
      · exact i3 (e.symm.trans hf)
      · rw [e, d2] at hf; cases hf
    constructor
    · unfold isPossible
      split
      · rw [if_pos hfree]; rfl
      · rename_i c r
        rw [if_neg, if_pos hfree]
        · rfl
        · rintro (h | h)
          · have := hin c (by simp)
            rcases hf with hf | hf
            · exact this.1 (h.symm.trans hf)
            · rw [h, this.2] at hf; cases hf
          · rcases h.1 with h | h
            · exact n1 h
            · exact n2 h
    · unfold arcPair
      rw [if_neg n1, if_neg n2]
      rfl
  | some c =>
    obtain ⟨r, rfl⟩ := hrest c rfl
    constructor
    · unfold isPossible
      exact if_pos hf
    · unfold arcPair shown
      dsimp only
      split_ifs with h1 h2
      · rfl
      · rfl
      · rcases hf with hf | hf
        · rw [hf]
        · exact (hf.1.elim h1 h2).elim

theorem go_complete (hw : ∀ m, maxW = some m → (∀ s, ∀ a ∈ g.arcs s, 0 ≤ a.weight) ∧ ∀ s f, g.final s = some f → 0 ≤ f) :
    ∀ (l : List Step) (fuel state : Nat) (path : Result) (eh : Handler) (fds : Option (List Sym)) (results r : List Result)
      (seen : List Nat) (n q : Nat) (f : Int),
      lookupGo g k maxW none fuel state (inputOf l) path eh fds results = .ok r →
      Run g state l q → g.final q = some f → (∀ c ∈ inputOf l, c ≠ epsilon ∧ isDiacritic c = false) →
      (∀ v, fds = some v → sIsValidString (v ++ flagsOf l) = true) →
      (∀ m, maxW = some m → path.1 + weightOf l + f ≤ m) →
      Lenient k seen n eh → n + (if state ∈ seen then 1 else 0) ≤ k →
      calm k (state :: seen) (n + if state ∈ seen then 1 else 0) l →
      (path.1 + weightOf l + f, path.2 ++ l.map shown) ∈ r
  | _, 0, _, _, _, _, _, _, _, _, _, _, h, _, _, _, _, _, _, _, _ => by cases h
  | l, fuel + 1, state, path, eh, fds, results, r, seen, n, q, f, h, hrun, hfin, hin, hfl, hmax, hlen, hcnt, hcalm => by
    obtain ⟨c1, c2⟩ := lenient_continue hlen hcnt
    rw [lookupGo.eq_def] at h
    dsimp only at h
    rw [c1] at h
    have hlimit : overWeight maxW path.1 = false := by
      unfold overWeight
      split
      · rename_i m
        have h1 := hmax m rfl
        obtain ⟨h2, h3⟩ := hw m rfl
        have h4 := weightOf_nonneg h2 hrun
        have h5 := h3 q f hfin
        simp; omega
      · rfl
    rw [if_neg (by decide), hlimit, if_neg (by decide), if_neg (by simp [overNumber])] at h
    split at h
    · cases h
    · rename_i arcs harcs
      cases hrun with
      | nil =>
        simp only [inputOf, List.filterMap_nil, if_true] at h
        rw [hfin] at h
        refine loop_mono _ (go_mono none fuel) _ _ _ _ _ _ _ _ _ h _ ?_
        simp only [weightOf, List.map_nil, List.sum_nil, Int.add_zero, List.append_nil] at hmax ⊢
        unfold addResult
        split
        · exact mem_setInsert.mpr (.inl rfl)
        · rename_i m
          rw [if_pos (not_lt.mpr (hmax m rfl))]
          exact mem_setInsert.mpr (.inl rfl)
      | @cons _ _ x l' hx hfit hrun' =>
        have hin' : ∀ c ∈ inputOf l', c ≠ epsilon ∧ isDiacritic c = false := by
          intro c hc
          refine hin c ?_
          rw [show x :: l' = [x] ++ l' from rfl, inputOf_append]
          exact List.mem_append_right _ hc
        have hrest : ∀ c, x.2 = some c → inputOf (x :: l') = c :: inputOf l' := by
          intro c hc; simp [inputOf, hc]
        have hrest0 : x.2 = none → inputOf (x :: l') = inputOf l' := by
          intro hc; simp [inputOf, hc]
        have hfc : flagsOf (x :: l') = flagsOf [x] ++ flagsOf l' := flagsOf_append [x] l'
        have hshn : x.2 = none → (shown x).1 = x.1.inp := by
          obtain ⟨xa, xc⟩ := x
          rintro rfl; rfl
        have hshs : ∀ c, x.2 = some c → (shown x).1 = c := by
          obtain ⟨xa, xc⟩ := x
          rintro c rfl; rfl
        obtain ⟨hpos, hpair⟩ := possible_of_fits (fds := fds) hfit hin (fun c hc => ⟨_, hrest c hc⟩) (by
          intro hn hd v hv
          have h1 := hfl v hv
          have : flagsOf [x] = [x.1.inp] := by simp [flagsOf, hshn hn, hd]
          rw [hfc, this, ← List.append_assoc] at h1
          exact valid_prefix h1)
        obtain ⟨res1, r1, hc, hsub⟩ := loop_calls _ (go_mono none fuel) _ _ _ _ _ hpos hpair _ _ _ _
          (by rw [← arcs_of_get harcs]; exact hx) h
        have hrest' : (if x.2.isSome then (inputOf (x :: l')).tail else inputOf (x :: l')) = inputOf l' := by
          cases hx2 : x.2 with
          | none => simp [hrest0 hx2]
          | some c => simp [hrest c hx2]
        rw [hrest'] at hc
        have hwt : weightOf (x :: l') = x.1.weight + weightOf l' := by simp [weightOf]
        have hflp : ∀ v, pushFlag fds (shown x) = some v → sIsValidString (v ++ flagsOf l') = true := by
          intro v hv
          cases hfd : fds with
          | none => rw [hfd] at hv; cases hv
          | some u =>
            have h1 := hfl u hfd
            rw [hfd] at hv
            simp only [pushFlag, Option.map_some, Option.some.injEq] at hv
            have : flagsOf [x] = if isDiacritic (shown x).1 then [(shown x).1] else [] := by
              simp [flagsOf, List.filter_cons]
            rw [hfc, this] at h1
            rw [← hv]
            split_ifs at h1 ⊢ <;> simpa using h1
        have key : (pushPath path (shown x) x.1.weight).1 + weightOf l' + f = path.1 + weightOf (x :: l') + f ∧
            (pushPath path (shown x) x.1.weight).2 ++ l'.map shown = path.2 ++ (x :: l').map shown := by
          simp [pushPath, hwt]; omega
        refine hsub _ ?_
        rw [← key.1, ← key.2]
        cases hx2 : x.2 with
        | none =>
          rw [hx2] at hc
          dsimp only [Option.isSome] at hc
          rw [if_neg (by decide)] at hc
          have hc2 : calm k (state :: seen) (n + if state ∈ seen then 1 else 0) ((x.1, none) :: l') := by
            rw [← hx2]; exact hcalm
          rw [calm] at hc2
          exact go_complete hw l' fuel x.1.target _ _ _ _ _ (state :: seen) _ q f hc hrun' hfin hin' hflp
            (fun m hm => by rw [key.1]; exact hmax m hm) c2 hc2.1 hc2.2
        | some c =>
          rw [hx2] at hc
          dsimp only [Option.isSome] at hc
          rw [if_pos rfl] at hc
          have hc2 : calm k (state :: seen) (n + if state ∈ seen then 1 else 0) ((x.1, some c) :: l') := by
            rw [← hx2]; exact hcalm
          rw [calm] at hc2
          refine go_complete hw l' fuel x.1.target _ _ _ _ _ [] 0 q f hc hrun' hfin hin' hflp
            (fun m hm => by rw [key.1]; exact hmax m hm) ⟨by simp [Handler.new], by simp [Handler.new], rfl⟩ (by simp) ?_
          simpa using hc2

end complete

/-- If no limit on the number of results is given, every analysis of the input is found whose run, within a stretch that
consumes nothing, returns to states of that stretch no more than the number of cycles allowed; if flags are obeyed, its
flags must be valid; if there is a weight limit, its weight must be within it, and weights must not be negative (see
`C26_negative_weight_violated`).  The input is made of ordinary symbols. -/
theorem C26_partial (g : Graph) (input : List Sym) (maxCycles : Option Nat) (maxW : Option Int) (obey : Bool)
    (before r : List Result) (fuel : Nat) (hin : ∀ c ∈ input, c ≠ epsilon ∧ isDiacritic c = false)
    (h : lookup fuel g input maxCycles maxW none obey before = .ok r) (l : List Step) (p : Result)
    (hl : IsAnalysis g input l p) (hk : FewReturns (maxCycles.getD 100000) 0 l)
    (hfl : obey = true → sIsValidString (flagsOf l) = true)
    (hw : ∀ m, maxW = some m → p.1 ≤ m ∧ (∀ s, ∀ a ∈ g.arcs s, 0 ≤ a.weight) ∧ ∀ s f, g.final s = some f → 0 ≤ f) :
    p ∈ r := by
  obtain ⟨q, f, h1, h2, rfl, rfl⟩ := hl
  have := go_complete (k := maxCycles.getD 100000) (maxW := maxW) (fun m hm => (hw m hm).2) l fuel 0 (0, [])
    (Handler.new (maxCycles.getD 100000)) (if obey then some [] else none) before r [] 0 q f h h1 h2 hin
    (by
      intro v hv
      cases obey with
      | false => cases hv
      | true => cases hv; exact hfl rfl)
    (fun m hm => by simpa using (hw m hm).1)
    ⟨by simp [Handler.new], by simp [Handler.new], rfl⟩ (by simp)
    (by
      have := calm_of_few (k := maxCycles.getD 100000) 0 l [] [] (by simp) (by simpa using hk)
      simpa [endState, returns] using this)
  simpa using this

/-! ## C27: lookup ends -/

section ends
variable {g : Graph} {k : Nat} {maxW : Option Int} {maxN : Option Nat}

theorem arcPair_some {al rest : List Sym} {fds : Option (List Sym)} {a : Arc} {consumed : Bool}
    (h : isPossible al rest fds a = some consumed) : ∃ p, arcPair rest a = some p := by
  obtain ⟨i1, i2, i3, d1, d2, d3⟩ := special_ne
  unfold isPossible at h
  unfold arcPair
  split at h
  · split_ifs at h with hf
    unfold isFree at hf
    split_ifs at hf with h1 h2
    · rw [h1, if_neg i2.symm, if_neg i3.symm]; exact ⟨_, rfl⟩
    · rw [if_neg (fun e => by rw [e, d1] at h2; exact absurd h2 (by decide)),
        if_neg (fun e => by rw [e, d2] at h2; exact absurd h2 (by decide))]
      exact ⟨_, rfl⟩
  · split_ifs <;> exact ⟨_, rfl⟩

theorem loop_total (call : LookupFn) (al : List Sym) (state : Nat) (rest : List Sym) (path : Result)
    (fds : Option (List Sym)) (E : Handler) :
    ∀ (as : List Arc) (eh : Handler) (results : List Result), eh.push state = E →
      (∀ a ∈ as, ∀ consumed path' fds' results', isPossible al rest fds a = some consumed →
        ∃ r, call a.target (if consumed then rest.tail else rest) path' (if consumed then Handler.new k else E) fds' results' =
          .ok r) →
      ∃ r, lookupLoop call al k state rest path fds as eh results = .ok r
  | [], _, results, _, _ => ⟨results, rfl⟩
  | a :: as, eh, results, hE, hc => by
    rw [lookupLoop]
    split
    · exact loop_total call al state rest path fds E as eh results hE (fun b hb => hc b (by simp [hb]))
    · rename_i consumed hpos
      obtain ⟨p, hp⟩ := arcPair_some hpos
      rw [hp]
      dsimp only
      obtain ⟨r, hr⟩ := hc a (by simp) consumed (pushPath path p a.weight) (pushFlag fds p) results hpos
      have e : (if consumed then Handler.new k else if consumed then eh else eh.push state) =
          if consumed then Handler.new k else E := by
        cases consumed
        · simp [hE]
        · rfl
      rw [e, hr]
      dsimp only
      refine loop_total call al state rest path fds E as _ r ?_ (fun b hb => hc b (by simp [hb]))
      cases consumed
      · rw [if_neg (by decide), push_push, hE]
      · exact hE

/-- What holds for the handler all the time. -/
structure HOk (g : Graph) (k : Nat) (eh : Handler) : Prop where
  max : eh.max = k
  cycles : eh.cycles ≤ k
  nodup : eh.path.Nodup
  lt : ∀ s ∈ eh.path, s < g.states.length

/-- The number of nested calls that are possible within one stretch. -/
def leeway (g : Graph) (k : Nat) (eh : Handler) : Nat :=
  (k - eh.cycles) * (g.states.length + 1) + (g.states.length - eh.path.length)

theorem HOk.length_le {eh : Handler} (h : HOk g k eh) : eh.path.length ≤ g.states.length := by
  have h1 : eh.path ⊆ List.range g.states.length := fun s hs => List.mem_range.mpr (h.lt s hs)
  have := (h.nodup.subperm h1).length_le
  simpa using this

theorem hok_new : HOk g k (Handler.new k) := ⟨rfl, Nat.zero_le _, by simp [Handler.new], by simp [Handler.new]⟩

theorem hok_step {eh : Handler} (h : HOk g k eh) {s : Nat} (hs : s < g.states.length) (hc : (eh.canContinue s).1 = true) :
    HOk g k ((eh.canContinue s).2.push s) ∧ leeway g k ((eh.canContinue s).2.push s) < leeway g k eh := by
  unfold Handler.canContinue at hc ⊢
  by_cases hp : s ∈ eh.path
  · rw [if_pos hp] at hc ⊢
    have hcy : eh.cycles + 1 ≤ k := by rw [← h.max]; simpa using hc
    have e : Handler.push { eh with path := eh.path.takeWhile (· ≠ s) ++ [s], cycles := eh.cycles + 1 } s =
        { eh with path := eh.path.takeWhile (· ≠ s) ++ [s], cycles := eh.cycles + 1 } := by
      unfold Handler.push
      rw [if_pos (by simp)]
    dsimp only
    rw [e]
    have hok : HOk g k { eh with path := eh.path.takeWhile (· ≠ s) ++ [s], cycles := eh.cycles + 1 } := by
      refine ⟨h.max, hcy, ?_, ?_⟩
      · dsimp only
        rw [List.nodup_append]
        refine ⟨h.nodup.sublist (List.takeWhile_sublist _), by simp, ?_⟩
        intro a ha b hb
        have := List.mem_takeWhile_imp ha
        simp only [List.mem_singleton] at hb
        subst hb
        simpa using this
      · intro t ht
        simp only [List.mem_append, List.mem_singleton] at ht
        rcases ht with ht | rfl
        · exact h.lt t (List.takeWhile_subset _ ht)
        · exact hs
    refine ⟨hok, ?_⟩
    have h1 := h.length_le
    unfold leeway
    obtain ⟨j, hj⟩ := Nat.exists_eq_add_of_le hcy
    have e1 : k - (eh.cycles + 1) = j := by omega
    have e2 : k - eh.cycles = j + 1 := by omega
    dsimp only
    rw [e1, e2, Nat.succ_mul]
    have h2 : 0 < (eh.path.takeWhile (· ≠ s) ++ [s]).length := by simp
    omega
  · rw [if_neg hp] at hc ⊢
    have e : eh.push s = { eh with path := eh.path ++ [s] } := by
      unfold Handler.push
      rw [if_neg]
      intro hl
      exact hp (List.mem_of_getLast? hl)
    dsimp only
    rw [e]
    have hok : HOk g k { eh with path := eh.path ++ [s] } := by
      refine ⟨h.max, h.cycles, ?_, ?_⟩
      · dsimp only
        rw [List.nodup_append]
        refine ⟨h.nodup, by simp, ?_⟩
        intro a ha b hb
        simp only [List.mem_singleton] at hb
        subst hb
        exact fun e => hp (e ▸ ha)
      · intro t ht
        simp only [List.mem_append, List.mem_singleton] at ht
        rcases ht with ht | rfl
        · exact h.lt t ht
        · exact hs
    refine ⟨hok, ?_⟩
    have h1 := hok.length_le
    simp only [List.length_append, List.length_singleton] at h1
    simp only [leeway, List.length_append, List.length_singleton]
    omega

/-- The number of nested calls that are possible. -/
def depth (g : Graph) (k : Nat) (rest : List Sym) (eh : Handler) : Nat :=
  rest.length * (k * (g.states.length + 1) + g.states.length + 1) + leeway g k eh

theorem go_total (hg : WF g) : ∀ (n state : Nat) (rest : List Sym) (path : Result) (eh : Handler)
    (fds : Option (List Sym)) (results : List Result), state < g.states.length → HOk g k eh → depth g k rest eh < n →
      ∃ r, lookupGo g k maxW maxN n state rest path eh fds results = .ok r
  | 0, _, _, _, _, _, _, _, _, h => by omega
  | n + 1, state, rest, path, eh, fds, results, hs, hok, hn => by
    rw [lookupGo.eq_def]
    dsimp only
    split
    · exact ⟨_, rfl⟩
    · rename_i hc
      have hc' : (eh.canContinue state).1 = true := by simpa using hc
      obtain ⟨hok', hlt⟩ := hok_step hok hs hc'
      split
      · exact ⟨_, rfl⟩
      · split
        · exact ⟨_, rfl⟩
        · rw [List.getElem?_eq_getElem hs]
          dsimp only
          refine loop_total _ _ _ _ _ _ ((eh.canContinue state).2.push state) _ _ _ rfl ?_
          intro a ha consumed path' fds' results' hpos
          have hta : a.target < g.states.length := by
            refine hg.targets state a ?_
            rw [arcs_of_get (List.getElem?_eq_getElem hs)]
            exact ha
          cases consumed with
          | false =>
            refine go_total hg n _ _ _ _ _ _ hta hok' ?_
            rw [if_neg (by decide), if_neg (by decide)]
            simp only [depth] at hn ⊢
            omega
          | true =>
            refine go_total hg n _ _ _ _ _ _ hta hok_new ?_
            have : 0 < rest.length := by
              cases rest with
              | nil => unfold isPossible at hpos; dsimp only at hpos; split_ifs at hpos; cases hpos
              | cons => simp
            rw [if_pos rfl, if_pos rfl]
            simp only [depth, leeway, Handler.new, Nat.sub_zero, List.length_nil] at hn ⊢
            rw [List.length_tail]
            obtain ⟨m, hm⟩ := Nat.exists_eq_add_of_lt this
            rw [hm] at hn ⊢
            have e : 0 + m + 1 - 1 = m := by omega
            rw [e]
            rw [show 0 + m + 1 = m + 1 by omega, Nat.succ_mul] at hn
            omega

theorem loop_fuel (call call' : LookupFn)
    (hc : ∀ state rest path eh fds results r, call state rest path eh fds results = .ok r →
      call' state rest path eh fds results = .ok r) (al : List Sym) (state : Nat) (rest : List Sym) (path : Result)
    (fds : Option (List Sym)) : ∀ (as : List Arc) (eh : Handler) (results r : List Result),
      lookupLoop call al k state rest path fds as eh results = .ok r →
        lookupLoop call' al k state rest path fds as eh results = .ok r
  | [], _, _, _, h => h
  | a :: as, eh, results, r, h => by
    rw [lookupLoop] at h ⊢
    split at h
    · exact loop_fuel call call' hc al state rest path fds as _ _ _ h
    · split at h
      · cases h
      · dsimp only at h ⊢
        split at h
        · rename_i res' h1
          rw [hc _ _ _ _ _ _ _ h1]
          exact loop_fuel call call' hc al state rest path fds as _ _ _ h
        · cases h
        · cases h

theorem go_fuel : ∀ (n state : Nat) (rest : List Sym) (path : Result) (eh : Handler) (fds : Option (List Sym))
    (results r : List Result), lookupGo g k maxW maxN n state rest path eh fds results = .ok r →
      lookupGo g k maxW maxN (n + 1) state rest path eh fds results = .ok r
  | 0, _, _, _, _, _, _, _, h => by cases h
  | n + 1, state, rest, path, eh, fds, results, r, h => by
    rw [lookupGo.eq_def] at h ⊢
    dsimp only at h ⊢
    split at h
    · rename_i h1; rw [if_pos h1]; exact h
    · rename_i h1
      rw [if_neg h1]
      split at h
      · rename_i h2; rw [if_pos h2]; exact h
      · rename_i h2
        rw [if_neg h2]
        split at h
        · rename_i h3; rw [if_pos h3]; exact h
        · rename_i h3
          rw [if_neg h3]
          split at h
          · cases h
          · rename_i arcs harcs
            exact loop_fuel _ _ (go_fuel n) _ _ _ _ _ _ _ _ _ h

end ends

/-- Lookup ends on every transducer (also one with epsilon cycles) for every input: with enough nested calls allowed there
is a result, no exception, and it is always the same. -/
theorem C27 (g : Graph) (hg : WF g) (input : List Sym) (maxCycles : Option Nat) (maxW : Option Int) (maxN : Option Nat)
    (obey : Bool) (before : List Result) :
    ∃ n r, ∀ fuel, n ≤ fuel → lookup fuel g input maxCycles maxW maxN obey before = .ok r := by
  have h0 : ∃ r, lookup (depth g (maxCycles.getD 100000) input (Handler.new _) + 1) g input maxCycles maxW maxN obey
      before = .ok r :=
    go_total hg _ _ _ _ _ _ _ hg.nonempty hok_new (Nat.lt_succ_self _)
  obtain ⟨r, hr⟩ := h0
  refine ⟨depth g (maxCycles.getD 100000) input (Handler.new (maxCycles.getD 100000)) + 1, r, fun fuel hf => ?_⟩
  induction hf with
  | refl => exact hr
  | step _ ih => exact go_fuel _ _ _ _ _ _ _ _ ih

/-! ## Examples, and inputs for which the claims fail -/

/-- A transducer with an epsilon cycle: `a:b` from 0 to 1, an epsilon loop at 1, which is final. -/
def loopGraph : Graph :=
  { states := [[⟨1, ['a'], ['b'], 2⟩], [⟨1, epsilon, ['c'], 1⟩]], finals := [(1, 5)],
    alphabet := [epsilon, unknown, identity, ['a'], ['b'], ['c']] }

theorem loopGraph_wf : WF loopGraph := by
  refine ⟨by decide, ?_, ?_⟩
  · intro s a ha
    match s, ha with
    | 0, ha => simp [loopGraph, Graph.arcs] at ha; subst ha; decide
    | 1, ha => simp [loopGraph, Graph.arcs] at ha; subst ha; decide
    | n + 2, ha => simp [loopGraph, Graph.arcs] at ha
  · intro s w h
    match s, h with
    | 0, _ => decide
    | 1, _ => decide
    | n + 2, h => simp [loopGraph, Graph.final, mapGet] at h

/-- Two cycles are allowed: the results for `a` with none, one and two rounds. -/
example : lookup 10 loopGraph [['a']] (some 2) none none false [] =
    .ok [(9, [(['a'], ['b']), (epsilon, ['c']), (epsilon, ['c'])]), (8, [(['a'], ['b']), (epsilon, ['c'])]),
      (7, [(['a'], ['b'])])] := by decide +kernel

/-- The hypotheses of `C26_partial` on a run with one round. -/
example : IsAnalysis loopGraph [['a']] [(⟨1, ['a'], ['b'], 2⟩, some ['a']), (⟨1, epsilon, ['c'], 1⟩, none)]
    (8, [(['a'], ['b']), (epsilon, ['c'])]) ∧
    calm 1 [0] 0 [(⟨1, ['a'], ['b'], 2⟩, some ['a']), (⟨1, epsilon, ['c'], 1⟩, none)] := by
  refine ⟨⟨1, 5, ?_, by decide, by decide, by decide +kernel⟩, ?_⟩
  · exact .cons (by simp [loopGraph, Graph.arcs]) (.inl rfl) (.cons (by simp [loopGraph, Graph.arcs]) (.inl rfl) (.nil 1))
  · simp [calm]

/-- Flags in the input are followed without asking whether they are allowed: the result has the flag sequence
`@R.F.x@`, which is not valid. -/
theorem C25_flag_input_violated :
    ∃ g input r, lookup 5 g input none none none true [] = .ok [r] ∧
      sIsValidString ((r.2.map Prod.fst).filter isDiacritic) = false :=
  ⟨{ states := [[⟨1, "@R.F.x@".toList, "@R.F.x@".toList, 0⟩], []], finals := [(1, 0)],
     alphabet := [epsilon, unknown, identity, "@R.F.x@".toList] }, ["@R.F.x@".toList],
   (0, [("@R.F.x@".toList, "@R.F.x@".toList)]), by decide +kernel, by decide +kernel⟩

/-- With negative weights an analysis whose weight is within the limit is lost if the beginning of its run exceeds it. -/
theorem C26_negative_weight_violated :
    ∃ g l p, IsAnalysis g [['a']] l p ∧ FewReturns 0 0 l ∧ p.1 ≤ 1 ∧
      lookup 5 g [['a']] (some 0) (some 1) none false [] = .ok [] := by
  refine ⟨{ states := [[⟨1, ['a'], ['a'], 2⟩], []], finals := [(1, -1)], alphabet := [['a']] },
    [(⟨1, ['a'], ['a'], 2⟩, some ['a'])], (1, [(['a'], ['a'])]), ⟨1, -1, ?_, by decide, by decide, by decide⟩, ?_, by decide,
    by decide +kernel⟩
  · exact .cons (by simp [Graph.arcs]) (.inl rfl) (.nil 1)
  · intro before stretch after h hs
    cases stretch with
    | nil => simp [returns]
    | cons x xs =>
      have : x ∈ [((⟨1, ['a'], ['a'], 2⟩ : Arc), some ['a'])] := by rw [h]; simp
      simp only [List.mem_singleton] at this
      have h2 := hs x (by simp)
      rw [this] at h2; cases h2

end Hfst.Basic
