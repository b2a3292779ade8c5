import Verif.Spec.ToolRepeat

/-!
# C99: hfst-repeat repeats as many times as asked for
-/
namespace Hfst.Repeat
open Hfst.StdString Hfst.Basic

section
variable {T : Type} {L : Library T} {meaning : T → List Sym → List Sym → Prop}

theorem toULong_nat (n : Nat) (h : n ≤ 2147483647) : toULong (n : Int) = n := by unfold toULong; omega

theorem readArg_nat (start : Nat × Bool) (n : Nat) (h : n ≤ 2147483647) :
    readArg start (some (some (.finite n))) = .inl (n, false) := by
  have h1 : ¬ ((n : Int) > intMax) := by unfold intMax; omega
  have h2 : ¬ ((n : Int) < intMin) := by unfold intMin; omega
  simp only [readArg, strToNumber, if_neg h1, if_neg h2, toULong_nat n h]

theorem repeatLoop_eq (L : Library T) (least most : Nat × Bool) (f : T → T) (h : ∀ g, repeatOne L least most g = some (f g)) (gs : List T) :
    repeatLoop L least most gs = ⟨gs.map f, .success⟩ := by
  induction gs with
  | nil => rfl
  | cons g gs ih => simp only [repeatLoop, h, ih]; rfl

theorem loop_nToK (hL : Lawful L meaning) (n k : Nat) (h : n ≤ k) (hk : k < 4294967296) (gs : List T) :
    Repeats meaning (fun i => n ≤ i ∧ i ≤ k) gs (repeatLoop L (n, false) (k, false) gs) := by
  refine ⟨L.nToK n k, ?_, fun g u v => ?_⟩
  · apply repeatLoop_eq
    intro g
    have e1 : toUInt n = n := by unfold toUInt; omega
    have e2 : toUInt k = k := by unfold toUInt; omega
    simp [repeatOne, e1, e2]
  · rw [hL.nToK n k g h hk]
    constructor
    · rintro ⟨i, h1, h2, h3⟩; exact ⟨i, ⟨h1, h2⟩, h3⟩
    · rintro ⟨i, ⟨h1, h2⟩, h3⟩; exact ⟨i, h1, h2, h3⟩

theorem loop_nPlus (hL : Lawful L meaning) (n : Nat) (hn : n < 4294967296) (k : Nat) (gs : List T) :
    Repeats meaning (fun i => n ≤ i) gs (repeatLoop L (n, false) (k, true) gs) := by
  refine ⟨L.nPlus n, ?_, fun g u v => hL.nPlus n g hn u v⟩
  apply repeatLoop_eq
  intro g
  have e1 : toUInt n = n := by unfold toUInt; omega
  simp [repeatOne, e1]

theorem loop_star (hL : Lawful L meaning) (n k : Nat) (gs : List T) :
    Repeats meaning (fun _ => True) gs (repeatLoop L (n, true) (k, true) gs) := by
  refine ⟨L.star, ?_, fun g u v => ?_⟩
  · apply repeatLoop_eq
    intro g
    simp [repeatOne]
  · rw [hL.star]
    constructor
    · rintro ⟨i, h⟩; exact ⟨i, trivial, h⟩
    · rintro ⟨i, _, h⟩; exact ⟨i, h⟩

/-- **C99, the numbers (partial)**: with numbers up to 2147483647, FNUM not above TNUM, each transducer of the archive is repeated at least
FNUM and at most TNUM times; without -f from 0 times, without -t any number of times; and with FNUM above TNUM the tool fails.  Missing:
greater numbers (`C99_large_violated`), infinities (`C99_to_infinity_violated`, `C99_from_infinity_violated`), and numbers below 0
(`C99_negative_violated`). -/
theorem C99_repeat_partial (hL : Lawful L meaning) (n k : Nat) (hn : n ≤ 2147483647) (hk : k ≤ 2147483647) (gs : List T) :
    (n ≤ k → Repeats meaning (fun i => n ≤ i ∧ i ≤ k) gs (repeatStream L (some (some (.finite n))) (some (some (.finite k))) gs)) ∧
    (k < n → repeatStream L (some (some (.finite n))) (some (some (.finite k))) gs = ⟨[], .failure⟩) ∧
    Repeats meaning (fun i => i ≤ k) gs (repeatStream L none (some (some (.finite k))) gs) ∧
    Repeats meaning (fun i => n ≤ i) gs (repeatStream L (some (some (.finite n))) none gs) ∧
    Repeats meaning (fun _ => True) gs (repeatStream L none none gs) := by
  have start : ∀ s, readArg s none = .inl s := fun _ => rfl
  refine ⟨fun h => ?_, fun h => ?_, ?_, ?_, ?_⟩
  · have := loop_nToK hL n k h (by omega) gs
    simp only [repeatStream, readArg_nat _ n hn, readArg_nat _ k hk]
    rw [if_neg (by simp; omega), if_neg (by simp)]
    exact this
  · simp only [repeatStream, readArg_nat _ n hn, readArg_nat _ k hk]
    rw [if_pos (by simpa using h)]
  · obtain ⟨c, h1, h2⟩ := loop_nToK hL 0 k (by omega) (by omega) gs
    simp only [repeatStream, start, readArg_nat _ k hk]
    rw [if_neg (by simp), if_neg (by simp)]
    refine ⟨c, h1, fun g u v => ?_⟩
    rw [h2]
    simp
  · have := loop_nPlus hL n (by omega) 4294967295 gs
    simp only [repeatStream, start, readArg_nat _ n hn]
    rw [if_neg (by simp; omega), if_neg (by simp)]
    exact this
  · obtain ⟨c, h1, h2⟩ := loop_nPlus hL 0 (by omega) 4294967295 gs
    simp only [repeatStream, start]
    rw [if_neg (by simp), if_neg (by simp)]
    refine ⟨c, h1, fun g u v => ?_⟩
    rw [h2]
    simp

/-- **C99, arguments that are not numbers**: the tool fails before anything is written. -/
theorem C99_not_a_number (L : Library T) (other : Arg) (h : ∀ n, other = some (some n) → n ≠ .nan) (gs : List T) :
    repeatStream L (some none) other gs = ⟨[], .failure⟩ ∧ repeatStream L other (some none) gs = ⟨[], .failure⟩ := by
  refine ⟨rfl, ?_⟩
  unfold repeatStream
  cases hr : readArg (0, false) other with
  | inl x => rfl
  | inr e =>
    cases other with
    | none => cases hr
    | some o =>
      cases o with
      | none => cases hr; rfl
      | some n =>
        exfalso
        cases n with
        | nan => exact h _ rfl rfl
        | posInf => cases hr
        | negInf => cases hr
        | finite f =>
          simp only [readArg, strToNumber] at hr
          split at hr
          · rename_i h'; revert h'; split <;> (try split) <;> simp
          · cases hr

/-- **C99, -t Inf (violated)**: with a positive FNUM the tool fails if TNUM is infinite, although that is documented to be the default: the
value of infinity is 0. -/
theorem C99_to_infinity_violated (hL : Lawful L meaning) (n : Nat) (h : 0 < n) (hn : n ≤ 2147483647) (gs : List T) :
    repeatStream L (some (some (.finite n))) (some (some .posInf)) gs = ⟨[], .failure⟩ ∧
    Repeats meaning (fun i => n ≤ i) gs (repeatStream L (some (some (.finite n))) none gs) := by
  refine ⟨?_, (C99_repeat_partial hL n 0 hn (by omega) gs).2.2.2.1⟩
  have e : readArg (4294967295, true) (some (some .posInf)) = .inl (0, true) := rfl
  simp only [repeatStream, readArg_nat _ n hn, e]
  rw [if_pos (by simpa using h)]

/-- **C99, -f Inf (violated)**: "at least infinitely many times" is any number of times, none included. -/
theorem C99_from_infinity_violated (hL : Lawful L meaning) (gs : List T) :
    Repeats meaning (fun _ => True) gs (repeatStream L (some (some .posInf)) none gs) ∧
    Repeats meaning (fun _ => True) gs (repeatStream L (some (some .posInf)) (some (some .posInf)) gs) :=
  ⟨loop_star hL 0 4294967295 gs, loop_star hL 0 0 gs⟩

/-- **C99, great numbers (violated)**: a TNUM above 2147483647 is read as 2147483647, and a FNUM above it too, without any message. -/
theorem C99_large_violated (hL : Lawful L meaning) (n : Nat) (hn : 2147483647 < n) (gs : List T) :
    Repeats meaning (fun i => i ≤ 2147483647) gs (repeatStream L none (some (some (.finite n))) gs) ∧
    Repeats meaning (fun i => 2147483647 ≤ i) gs (repeatStream L (some (some (.finite n))) none gs) := by
  have e : ∀ s, readArg s (some (some (.finite n))) = readArg s (some (some (.finite (2147483647 : Nat)))) := by
    intro s
    have h1 : (n : Int) > intMax := by unfold intMax; omega
    rw [readArg_nat s 2147483647 (by omega)]
    simp only [readArg, strToNumber, if_pos h1]
    rfl
  unfold repeatStream
  simp only [e]
  have := C99_repeat_partial hL 2147483647 2147483647 (by omega) (by omega) gs
  exact ⟨this.2.2.1, this.2.2.2.1⟩

/-- **C99, numbers below 0 (violated)**: the help text asks for positive numbers; a TNUM of -1 is taken as 4294967295. -/
theorem C99_negative_violated (hL : Lawful L meaning) (gs : List T) :
    Repeats meaning (fun i => i ≤ 4294967295) gs (repeatStream L none (some (some (.finite (-1)))) gs) := by
  have e : readArg (4294967295, true) (some (some (.finite (-1)))) = .inl (18446744073709551615, false) := by decide +kernel
  have start : readArg (0, false) none = .inl (0, false) := rfl
  simp only [repeatStream, start, e]
  rw [if_neg (by simp), if_neg (by simp)]
  refine ⟨L.nToK 0 4294967295, ?_, fun g u v => ?_⟩
  · apply repeatLoop_eq
    intro g
    simp [repeatOne, toUInt]
  · rw [hL.nToK 0 4294967295 g (by omega) (by omega)]
    simp

/-- **C99, FNUM below 0**: the tool fails if TNUM is not below 0, or is not given. -/
theorem C99_negative_from (L : Library T) (m : Int) (hm : m < 0) (k : Nat) (hk : k ≤ 2147483647) (gs : List T) :
    repeatStream L (some (some (.finite m))) (some (some (.finite k))) gs = ⟨[], .failure⟩ ∧
    repeatStream L (some (some (.finite m))) none gs = ⟨[], .failure⟩ := by
  have h1 : ¬ m > intMax := by unfold intMax; omega
  obtain ⟨w, e, hw⟩ : ∃ w, readArg (0, false) (some (some (.finite m))) = .inl (w, false) ∧ 4294967295 < w := by
    simp only [readArg, strToNumber, if_neg h1]
    by_cases h2 : m < intMin
    · rw [if_pos h2]
      exact ⟨_, rfl, by unfold toULong intMin; omega⟩
    · rw [if_neg h2]
      unfold intMin at h2
      exact ⟨_, rfl, by unfold toULong; omega⟩
  have start : readArg (4294967295, true) none = .inl (4294967295, true) := rfl
  constructor
  · simp only [repeatStream, e, readArg_nat _ k hk]
    rw [if_pos (by simp; omega)]
  · simp only [repeatStream, e, start]
    rw [if_pos (by simp; omega)]

/-- **C99, from infinity to a number**: the tool fails. -/
theorem C99_infinity_to_number (L : Library T) (k : Nat) (hk : k ≤ 2147483647) (gs : List T) :
    repeatStream L (some (some .posInf)) (some (some (.finite k))) gs = ⟨[], .failure⟩ := by
  have e : readArg (0, false) (some (some .posInf)) = .inl (0, true) := rfl
  simp only [repeatStream, e, readArg_nat _ k hk]
  rw [if_neg (by simp), if_pos (by simp)]

/-- **C99, -t -Inf (violated)**: at most minus infinity times is any number of times. -/
theorem C99_minus_infinity_violated (hL : Lawful L meaning) (gs : List T) :
    Repeats meaning (fun i => 0 ≤ i) gs (repeatStream L none (some (some .negInf)) gs) :=
  loop_nPlus hL 0 (by omega) 1 gs

/-- **C99, NaN (violated)**: an argument that `strtod` reads as "not a number" has undefined behaviour. -/
theorem C99_nan_violated (L : Library T) (to' : Arg) (gs : List T) : repeatStream L (some (some .nan)) to' gs = ⟨[], .undefined⟩ := rfl

end

/-! ## Cases that meet the hypotheses -/

/-- A library whose transducers are the relations themselves (it stands for the functions called in tools/src/hfst-repeat.cc:199, 220,
226). -/
def relations : Library (List Sym → List Sym → Prop) where
  star t := fun u v => ∃ i, Power t i u v
  nPlus n t := fun u v => ∃ i, n ≤ i ∧ Power t i u v
  nToK n k t := fun u v => ∃ i, n ≤ i ∧ i ≤ k ∧ Power t i u v

/-- What is assumed of the library can be met. -/
theorem relations_lawful : Lawful relations fun t => t :=
  ⟨fun _ _ _ => Iff.rfl, fun _ _ _ _ _ => Iff.rfl, fun _ _ _ _ _ _ _ => Iff.rfl⟩

/-- `hfst-repeat -f 2 -t 3` for a transducer that accepts `a`: `aa` is accepted and `a` is not. -/
example : ∃ w, repeatStream relations (some (some (.finite 2))) (some (some (.finite 3))) [fun u v => u = [['a']] ∧ v = [['a']]] =
    ⟨[w], .success⟩ ∧ w [['a'], ['a']] [['a'], ['a']] ∧ ¬ w [['a']] [['a']] := by
  obtain ⟨c, h1, h2⟩ := (C99_repeat_partial relations_lawful 2 3 (by omega) (by omega) [fun u v => u = [['a']] ∧ v = [['a']]]).1 (by omega)
  refine ⟨_, h1, (h2 _ _ _).2 ⟨2, by omega, ?_⟩, fun h => ?_⟩
  · exact ⟨[['a']], [['a']], [['a']], [['a']], ⟨rfl, rfl⟩, ⟨[['a']], [['a']], [], [], ⟨rfl, rfl⟩, ⟨rfl, rfl⟩, rfl, rfl⟩, rfl, rfl⟩
  · obtain ⟨i, ⟨hi, _⟩, hp⟩ := (h2 _ _ _).1 h
    rcases i with _ | _ | i
    · omega
    · omega
    · obtain ⟨u1, v1, u2, v2, ⟨rfl, rfl⟩, ⟨u3, v3, u4, v4, ⟨rfl, rfl⟩, _, rfl, rfl⟩, e, _⟩ := hp
      have := congrArg List.length e
      simp at this

/-- `hfst-repeat -f 3 -t 2` fails. -/
example (g : List Sym → List Sym → Prop) : repeatStream relations (some (some (.finite 3))) (some (some (.finite 2))) [g] = ⟨[], .failure⟩ :=
  (C99_repeat_partial relations_lawful 3 2 (by omega) (by omega) [g]).2.1 (by omega)

/-- `hfst-repeat -f 1 -t inf` fails. -/
example (g : List Sym → List Sym → Prop) : repeatStream relations (some (some (.finite 1))) (some (some .posInf)) [g] = ⟨[], .failure⟩ :=
  (C99_to_infinity_violated relations_lawful 1 (by omega) (by omega) [g]).1

/-- `hfst-repeat -f inf`: the empty string is accepted. -/
example (g : List Sym → List Sym → Prop) : ∃ w, repeatStream relations (some (some .posInf)) none [g] = ⟨[w], .success⟩ ∧ w [] [] := by
  obtain ⟨c, h1, h2⟩ := (C99_from_infinity_violated relations_lawful [g]).1
  exact ⟨_, h1, (h2 _ _ _).2 ⟨0, trivial, rfl, rfl⟩⟩

/-- `hfst-repeat -f -1 -t 2` and `hfst-repeat -f -1` fail. -/
example (g : List Sym → List Sym → Prop) : repeatStream relations (some (some (.finite (-1)))) (some (some (.finite 2))) [g] = ⟨[], .failure⟩ ∧
    repeatStream relations (some (some (.finite (-1)))) none [g] = ⟨[], .failure⟩ :=
  C99_negative_from relations (-1) (by omega) 2 (by omega) [g]

/-- `hfst-repeat -f x -t 2` and `hfst-repeat -f 2 -t x`, where `x` is not a number. -/
example (g : List Sym → List Sym → Prop) : repeatStream relations (some none) (some (some (.finite 2))) [g] = ⟨[], .failure⟩ ∧
    repeatStream relations (some (some (.finite 2))) (some none) [g] = ⟨[], .failure⟩ :=
  C99_not_a_number relations _ (by intro n h; cases h; intro h; cases h) [g]

/-- `hfst-repeat -f inf -t 5` fails. -/
example (g : List Sym → List Sym → Prop) : repeatStream relations (some (some .posInf)) (some (some (.finite 5))) [g] = ⟨[], .failure⟩ :=
  C99_infinity_to_number relations 5 (by omega) [g]

/-- 3000000000 is a number that is read as 2147483647. -/
example (g : List Sym → List Sym → Prop) :
    Repeats (fun t => t) (fun i => 2147483647 ≤ i) [g] (repeatStream relations (some (some (.finite (3000000000 : Nat)))) none [g]) :=
  (C99_large_violated relations_lawful 3000000000 (by omega) [g]).2

end Hfst.Repeat
