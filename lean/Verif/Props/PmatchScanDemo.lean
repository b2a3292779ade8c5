import Verif.Props.PmatchScan
import Verif.Props.PmatchDemo

/-!
# C64: an example and failures
-/
namespace Hfst.Pmatch
open Hfst.Basic Hfst.Ol

/-- The alphabet of the example with the symbol 6 that calls the second net. -/
def callAlphabet : PmAlphabet := { demoAlphabet with
  base := ⟨[ascii "@_EPSILON_SYMBOL_@", ascii "@PMATCH_ENTRY@", ascii "@PMATCH_EXIT@", ascii "@PMATCH_ENDTAG_W@", [97], [98], ascii "@I.inner@"],
    noSymbol, noSymbol, noSymbol⟩
  capture2captured := List.replicate 7 noSymbol
  captured2capture := List.replicate 7 noSymbol
  symbol2lists := List.replicate 7 noSymbol
  list2symbols := List.replicate 7 noSymbol
  printable := [false, false, false, false, true, true, false]
  rtns := List.replicate 6 none ++ [some 1] }

/-- The net that puts what the second net matches between the tags `<W>` and `</W>`. -/
def outerNet : Net where
  size := 5
  arcs := fun q => match q with
    | 0 => [⟨0, 1, 1, 0⟩]
    | 1 => [⟨6, 6, 2, 0⟩]
    | 2 => [⟨0, 3, 3, 0⟩]
    | 3 => [⟨0, 2, 4, 0⟩]
    | _ => []
  final := fun q => if q = 4 then some 0 else none

/-- The net of `a+`, with weight 1 for each `a`. -/
def innerNet : Net where
  size := 2
  arcs := fun _ => [⟨4, 4, 1, 1⟩]
  final := fun q => if q = 1 then some 0 else none

/-- Where the states are. -/
def callPos (t q : Nat) : Nat := match t, q with
  | 0, 0 => 0
  | 0, q + 1 => targetStart + 1 + 2 * q
  | _, 0 => 0
  | _, _ + 1 => targetStart + 1

/-- The entries without exits. -/
def callLevel (t q : Nat) : Nat := if t = 0 ∧ (q = 1 ∨ q = 2 ∨ q = 3) then 1 else 0

/-- The tables of the outer net. -/
def outerTables : Tables where
  indices := [⟨noSymbol, noIndex⟩, ⟨0, targetStart⟩] ++ List.replicate 6 ⟨noSymbol, noIndex⟩
  transitions := [⟨0, 1, targetStart + 1, 0⟩, hollow, ⟨6, 6, targetStart + 3, 0⟩, hollow, ⟨0, 3, targetStart + 5, 0⟩, hollow,
    ⟨0, 2, targetStart + 7, 0⟩, ⟨noSymbol, noSymbol, 1, 0⟩, hollow]
  orig := 7

/-- The tables of the inner net. -/
def innerTables : Tables where
  indices := List.replicate 5 ⟨noSymbol, noIndex⟩ ++ [⟨4, targetStart⟩] ++ List.replicate 2 ⟨noSymbol, noIndex⟩
  transitions := [⟨4, 4, targetStart + 1, 1⟩, ⟨noSymbol, noSymbol, 1, 0⟩, ⟨4, 4, targetStart + 1, 1⟩, hollow]
  orig := 7

/-- The two nets. -/
def callParts : List Part := [⟨outerNet, 7⟩, ⟨innerNet, 7⟩]

/-- Matching in `aaba`. -/
def callConfig (locate : Bool) : Config := ⟨callAlphabet, [outerTables, innerTables], fun w => (w : Int), [4, 4, 5, 4], none, locate, []⟩

theorem call_free {x : Nat} : Free callAlphabet x ↔ x = 0 ∨ x = 6 := by
  unfold Free
  constructor
  · rintro (h | h)
    · exact .inl h
    · right
      match x, h with
      | 0, h | 1, h | 2, h | 3, h | 4, h | 5, h => exact absurd rfl h
      | 6, _ => rfl
      | n + 7, h => exact absurd rfl h
  · rintro (rfl | rfl)
    · exact .inl rfl
    · exact .inr (by decide +kernel)

theorem call_input {c : Nat} (h : c ∈ [4, 4, 5, 4]) : c = 4 ∨ c = 5 := by
  simp at h
  omega

theorem call_reads {c x : Nat} (hc : c = 4 ∨ c = 5) (h : Reads callAlphabet 7 c x) : x = c := by
  obtain ⟨hne, h⟩ := h
  rcases h with ⟨l, xs, h1, h2, _⟩ | ⟨h, _⟩ | ⟨h, _⟩ | ⟨h, _⟩ | ⟨h, _⟩ | ⟨_, h⟩ | ⟨h, _⟩
  · rcases hc with rfl | rfl
    · injection h1 with h1
      exact absurd h1.symm h2
    · injection h1 with h1
      exact absurd h1.symm h2
  · exact absurd h hne
  · exact absurd h hne
  · exact absurd h hne
  · exact absurd h hne
  · exact h
  · omega

theorem entries_one {weightOf : Nat → Int} {T : Tables} {pos : Nat → Nat} {i : Nat} {a : NArc} {stop : Trans → Prop} {t t' : Trans}
    (h : T.transitions[i]? = some t) (he : Entry weightOf pos t a) (h' : T.transitions[i + 1]? = some t') (hs : stop t') :
    Entries weightOf T pos i [a] stop := by
  refine ⟨?_, t', h', hs⟩
  intro k b hk
  match k, hk with
  | 0, hk =>
    injection hk with hk
    exact ⟨t, h, hk ▸ he⟩

theorem hollow_stop : ¬ Free callAlphabet hollow.input := by
  rw [call_free]
  decide +kernel

theorem outer_stored : Stored callAlphabet (fun w => (w : Int)) (fun x => ∃ c ∈ [4, 4, 5, 4], Reads callAlphabet 7 c x) ⟨outerNet, 7⟩ outerTables
    (callPos 0) where
  orig := rfl
  nonempty := by decide
  closed := by
    intro q hq
    match q, hq with
    | 0, _ | 1, _ | 2, _ | 3, _ | 4, _ => decide +kernel
    | n + 5, h => exact absurd h (by show ¬ n + 5 < 5; omega)
  start := rfl
  placed := by
    intro q hq
    match q, hq with
    | 0, _ =>
      left
      refine ⟨by decide +kernel, ⟨⟨noSymbol, noIndex⟩, rfl, by decide +kernel⟩, ?_, ?_⟩
      · refine ⟨⟨0, targetStart⟩, rfl, .inr ⟨rfl, Nat.le_refl _, [⟨0, 1, 1, 0⟩], ?_, ?_⟩⟩
        · intro a
          simp only [List.mem_singleton, outerNet]
          refine ⟨fun h => ⟨h, h ▸ .inl rfl⟩, fun h => h.1⟩
        · rw [Nat.sub_self]
          exact entries_one (t' := hollow) rfl ⟨rfl, rfl, rfl, rfl⟩ rfl hollow_stop
      · rintro x ⟨c, hc, hr⟩
        have hx := call_reads (call_input hc) hr
        have hc := call_input hc
        refine ⟨⟨noSymbol, noIndex⟩, ?_, .inl ⟨?_, ?_⟩⟩
        · rw [hx]
          rcases hc with rfl | rfl <;> rfl
        · rw [hx]
          rcases hc with rfl | rfl <;> decide +kernel
        · intro a ha e
          simp only [List.mem_singleton, outerNet] at ha
          rw [ha] at e
          dsimp only at e
          omega
    | 1, _ =>
      exact .inr ⟨by decide +kernel, ⟨hollow, rfl, by decide +kernel⟩,
        ⟨_, fun a => Iff.rfl, entries_one (t' := hollow) rfl ⟨rfl, rfl, rfl, rfl⟩ rfl rfl⟩,
        .inl (fun a ha => by rw [List.mem_singleton.mp ha, call_free]; exact .inr rfl)⟩
    | 2, _ =>
      exact .inr ⟨by decide +kernel, ⟨hollow, rfl, by decide +kernel⟩,
        ⟨_, fun a => Iff.rfl, entries_one (t' := hollow) rfl ⟨rfl, rfl, rfl, rfl⟩ rfl rfl⟩,
        .inl (fun a ha => by rw [List.mem_singleton.mp ha, call_free]; exact .inl rfl)⟩
    | 3, _ =>
      exact .inr ⟨by decide +kernel, ⟨hollow, rfl, by decide +kernel⟩,
        ⟨_, fun a => Iff.rfl, entries_one (t' := ⟨noSymbol, noSymbol, 1, 0⟩) rfl ⟨rfl, rfl, rfl, rfl⟩ rfl rfl⟩,
        .inl (fun a ha => by rw [List.mem_singleton.mp ha, call_free]; exact .inl rfl)⟩
    | 4, _ =>
      exact .inr ⟨by decide +kernel, ⟨⟨noSymbol, noSymbol, 1, 0⟩, rfl, by decide +kernel⟩,
        ⟨[], fun a => Iff.rfl, (fun k a h => by cases h), hollow, rfl, rfl⟩, .inl (fun a ha => by cases ha)⟩
    | n + 5, h => exact absurd h (by show ¬ n + 5 < 5; omega)
  size := by decide +kernel

theorem inner_stored : Stored callAlphabet (fun w => (w : Int)) (fun x => ∃ c ∈ [4, 4, 5, 4], Reads callAlphabet 7 c x) ⟨innerNet, 7⟩ innerTables
    (callPos 1) where
  orig := rfl
  nonempty := by decide
  closed := by
    intro q hq
    match q, hq with
    | 0, _ | 1, _ => decide +kernel
    | n + 2, h => exact absurd h (by show ¬ n + 2 < 2; omega)
  start := rfl
  placed := by
    intro q hq
    match q, hq with
    | 0, _ =>
      left
      refine ⟨by decide +kernel, ⟨⟨noSymbol, noIndex⟩, rfl, by decide +kernel⟩, ?_, ?_⟩
      · refine ⟨⟨noSymbol, noIndex⟩, rfl, .inl ⟨by decide +kernel, ?_⟩⟩
        intro a ha
        rw [List.mem_singleton.mp ha]
        show ¬ Free callAlphabet 4
        rw [call_free]
        decide
      · rintro x ⟨c, hc, hr⟩
        have hx := call_reads (call_input hc) hr
        have hc := call_input hc
        rw [hx]
        rcases hc with rfl | rfl
        · refine ⟨⟨4, targetStart⟩, rfl, .inr ⟨rfl, Nat.le_refl _, [⟨4, 4, 1, 1⟩], ?_, ?_⟩⟩
          · intro a
            simp only [List.mem_singleton, innerNet]
            refine ⟨fun h => ⟨h, h ▸ rfl⟩, fun h => h.1⟩
          · rw [Nat.sub_self]
            exact entries_one (t' := ⟨noSymbol, noSymbol, 1, 0⟩) rfl ⟨rfl, rfl, rfl, rfl⟩ rfl (by decide +kernel)
        · refine ⟨⟨noSymbol, noIndex⟩, rfl, .inl ⟨by decide +kernel, ?_⟩⟩
          intro a ha
          rw [List.mem_singleton.mp ha]
          decide
    | 1, _ =>
      exact .inr ⟨by decide +kernel, ⟨⟨noSymbol, noSymbol, 1, 0⟩, rfl, by decide +kernel⟩,
        ⟨_, fun a => Iff.rfl, entries_one (t' := hollow) rfl ⟨rfl, rfl, rfl, rfl⟩ rfl rfl⟩,
        .inr ⟨4, by rw [call_free]; decide, fun a ha => by rw [List.mem_singleton.mp ha]⟩⟩
    | n + 2, h => exact absurd h (by show ¬ n + 2 < 2; omega)
  size := by decide +kernel

theorem outer_balanced : Balanced callAlphabet ⟨outerNet, 7⟩ (callLevel 0) where
  start := rfl
  entry := by
    intro q hq
    match q, hq with
    | 0, _ | 1, _ | 2, _ | 3, _ | 4, _ => decide +kernel
    | n + 5, h => exact absurd h (by show ¬ n + 5 < 5; omega)
  exit := by
    intro q hq
    match q, hq with
    | 0, _ | 1, _ | 2, _ | 3, _ | 4, _ => decide +kernel
    | n + 5, h => exact absurd h (by show ¬ n + 5 < 5; omega)
  other := by
    intro q hq
    match q, hq with
    | 0, _ | 1, _ | 2, _ | 3, _ | 4, _ => decide +kernel
    | n + 5, h => exact absurd h (by show ¬ n + 5 < 5; omega)

theorem inner_balanced : Balanced callAlphabet ⟨innerNet, 7⟩ (callLevel 1) where
  start := rfl
  entry := by
    intro q hq a ha h
    rw [List.mem_singleton.mp ha] at h
    cases h
  exit := by
    intro q hq a ha h
    rw [List.mem_singleton.mp ha] at h
    cases h
  other := fun q hq a ha _ => rfl

theorem call_simple (locate : Bool) : Simple (callConfig locate) callParts callPos callLevel where
  flags := fun x => rfl
  default := rfl
  passthrough := rfl
  maxWeight := rfl
  none := by
    show callAlphabet.rtn noSymbol = Option.none
    decide +kernel
  count := rfl
  first := by decide
  calls := by
    intro x u h
    have hx : x = 0 ∨ x = 6 := call_free.mp (.inr (by
      show callAlphabet.rtn x ≠ Option.none
      have h : callAlphabet.rtn x = some u := h
      rw [h]
      simp))
    rcases hx with rfl | rfl
    · cases h
    · injection h with h
      rw [← h]
      decide
  stored := by
    intro t N T hN hT
    match t, hN, hT with
    | 0, hN, hT =>
      injection hN with hN
      injection hT with hT
      rw [← hN, ← hT]
      exact outer_stored
    | 1, hN, hT =>
      injection hN with hN
      injection hT with hT
      rw [← hN, ← hT]
      exact inner_stored
    | n + 2, hN, _ => cases hN
  balanced := by
    intro t N hN
    match t, hN with
    | 0, hN =>
      injection hN with hN
      rw [← hN]
      exact outer_balanced
    | 1, hN =>
      injection hN with hN
      rw [← hN]
      exact inner_balanced
    | n + 2, hN => cases hN
  outputs := by
    intro t N hN q hq a ha
    have : a.output = 1 ∨ a.output = 6 ∨ a.output = 3 ∨ a.output = 2 ∨ a.output = 4 := by
      match t, hN with
      | 0, hN =>
        injection hN with hN
        rw [← hN] at hq ha
        match q, hq, ha with
        | 0, _, ha | 1, _, ha | 2, _, ha | 3, _, ha => rw [List.mem_singleton.mp ha]; decide
        | 4, _, ha => cases ha
        | n + 5, h, _ => exact absurd h (by show ¬ n + 5 < 5; omega)
      | 1, hN =>
        injection hN with hN
        rw [← hN] at ha
        rw [List.mem_singleton.mp ha]
        decide
      | n + 2, hN => cases hN
    rcases this with h | h | h | h | h <;> rw [h] <;> exact ⟨⟨noSymbol, rfl⟩, rfl, rfl⟩
  symbols := by
    intro c hc
    rcases call_input hc with rfl | rfl
    · exact ⟨by decide +kernel, noSymbol, rfl, fun h => absurd rfl h⟩
    · exact ⟨by decide +kernel, noSymbol, rfl, fun h => absurd rfl h⟩
  looked := by
    intro N c x hN hc hr
    have hN : N.orig = 7 := by
      simp only [callParts, List.mem_cons, List.not_mem_nil, or_false] at hN
      rcases hN with rfl | rfl <;> rfl
    rw [hN] at hr
    have hx := call_reads (call_input hc) hr
    have := call_input hc
    show ¬ Free callAlphabet x
    rw [call_free]
    omega

theorem call_marks : Marks callAlphabet where
  size := rfl
  nonempty := by decide +kernel
  strings := by decide +kernel
  epsilon := rfl
  ends := by
    intro x hx
    rcases hx with rfl | rfl
    · exact .inr (by decide +kernel)
    · exact .inr (by decide +kernel)
  boundary := fun h => absurd rfl h
  tags := by
    intro x hx
    have : x = 3 := by
      unfold PmAlphabet.isEndTag callAlphabet demoAlphabet at hx
      simp at hx
      exact hx.symm
    rw [this]
    decide +kernel

/-- Insertion by weight. -/
def byWeight (l : List Location) : List Location := l.mergeSort fun a b => decide (a.weight ≤ b.weight)

theorem byWeight_sorts : Sorts byWeight where
  perm := fun l x => List.mem_mergeSort
  sorted := by
    intro l
    have := List.pairwise_mergeSort (le := fun a b : Location => decide (a.weight ≤ b.weight))
      (fun a b c h h' => by simp only [decide_eq_true_eq] at *; omega) (fun a b => by simp only [Bool.or_eq_true, decide_eq_true_eq]; omega) l
    exact this.imp (fun h => by simpa using h)

/-- In `aaba`, the first two letters are one match, and the last letter is another. -/
example : ∃ out, process byWeight (callConfig false) 20 [] (demoState 0) = .ok (out, []) ∧
    Scan (Matches callAlphabet callParts [4, 4, 5, 4] 20) [4, 4, 5, 4] 0 out :=
  C64_match_partial (call_simple false) rfl (fun h => absurd rfl h) (fun _ => by simp [demoState])

example : process id (callConfig false) 20 [] (demoState 0) =
    .ok ([(0, 1), (4, 4), (4, 4), (0, 3), (0, 2), (5, 5), (0, 1), (4, 4), (0, 3), (0, 2)], []) := by decide +kernel

example : ∃ out groups ls, process byWeight (callConfig true) 20 [] (demoState 0) = .ok (out, groups) ∧ WithGaps groups ls ∧
    Located (Matches callAlphabet callParts [4, 4, 5, 4] 20) callAlphabet 4 0 ls :=
  C64_locate_partial (call_simple true) rfl call_marks byWeight_sorts (fun h => absurd rfl h) (fun _ => by simp [demoState])

/-! ## Failures -/

/-- The tables of a net that writes `a` without reading anything. -/
def writerTables : Tables where
  indices := [⟨noSymbol, noIndex⟩, ⟨0, targetStart⟩] ++ List.replicate 6 ⟨noSymbol, noIndex⟩
  transitions := [⟨0, 4, targetStart + 1, 0⟩, ⟨noSymbol, noSymbol, 1, 0⟩, hollow]
  orig := 7

/-- C64 leaves open whether matches that read nothing are written, since this depends on a weight that was never set. -/
theorem C64_weight_violated :
    process id ⟨callAlphabet, [writerTables], fun w => (w : Int), [5], none, false, []⟩ 20 [] (demoState 1) = .ok ([(0, 4), (5, 5)], []) ∧
    process id ⟨callAlphabet, [writerTables], fun w => (w : Int), [5], none, false, []⟩ 20 [] (demoState (-1)) = .ok ([(5, 5)], []) := by
  decide +kernel

/-- The tables of a net that matches `b` with the weight 7. -/
def heavyTables : Tables where
  indices := List.replicate 6 ⟨noSymbol, noIndex⟩ ++ [⟨5, targetStart⟩] ++ List.replicate 2 ⟨noSymbol, noIndex⟩
  transitions := [⟨5, 4, targetStart + 1, 0⟩, ⟨noSymbol, noSymbol, 1, 7⟩, hollow]
  orig := 7

/-- C64 fails for weight limits: with the limit 3, a match with the weight 7 is found, because the weight of its last state does not count. -/
theorem C64_limit_violated :
    process id ⟨callAlphabet, [heavyTables], fun w => (w : Int), [5], some 3, false, []⟩ 20 [] (demoState 0) = .ok ([(5, 4)], []) ∧
    (∃ l, process id ⟨callAlphabet, [heavyTables], fun w => (w : Int), [5], some 3, true, []⟩ 20 [] (demoState 0) = .ok ([], [[l]]) ∧
      l.weight = 7) := by
  refine ⟨by decide +kernel, ⟨0, 1, [98], [97], [], 7, [], [], [[98]], [[97]]⟩, by decide +kernel, rfl⟩

end Hfst.Pmatch
