import Mathlib.Data.Nat.Find
import Verif.Model.StripHeader
import Verif.Spec.StripHeader

/-!
# C105: hfst-strip-header removes the headers and nothing else
-/
namespace Hfst.StripHeader
open Hfst.Stream

theorem header_eq : header = sig := by decide +kernel

theorem run_look (n : Nat) (c : Byte) (cs : Bytes) : run (.look n) (c :: cs) =
    if header[n]? = some c then
      if n = 5 then run .eat cs else run (.look (n + 1)) cs
    else header.take n ++ (if header[0]? = some c then run (.look 1) cs else c :: run (.look 0) cs) := by
  rw [run]

theorem run_eat_cons (c : Byte) (cs : Bytes) : run .eat (c :: cs) = if c = 0 then run (.look 0) cs else run .eat cs := by
  rw [run]

theorem take_succ_of {n : Nat} {c : Byte} (h : header[n]? = some c) (cs : Bytes) :
    header.take n ++ c :: cs = header.take (n + 1) ++ cs := by
  rw [List.take_add_one, h]
  simp

theorem first_of {c : Byte} (h : header[0]? = some c) (cs : Bytes) : c :: cs = header.take 1 ++ cs := by
  have := take_succ_of h cs
  simpa using this

theorem full_of {c : Byte} (h : header[5]? = some c) (cs : Bytes) : sig <:+: header.take 5 ++ c :: cs := by
  rw [take_succ_of h cs, header_eq]
  exact ⟨[], cs, by simp [sig]⟩

theorem infix_right {a b : Bytes} (h : ¬ sig <:+: a ++ b) : ¬ sig <:+: b :=
  fun hb => h (hb.trans (List.suffix_append a b).isInfix)

/-- Without a header only the beginning of one at the end is lost. -/
theorem run_copy (cs : Bytes) : ∀ n, n ≤ 5 → ¬ sig <:+: header.take n ++ cs →
    ∃ k, k ≤ 5 ∧ header.take n ++ cs = run (.look n) cs ++ sig.take k := by
  induction cs with
  | nil =>
    intro n hn _
    exact ⟨n, hn, by simp [run, header_eq]⟩
  | cons c cs ih =>
    intro n hn h
    rw [run_look]
    by_cases hc : header[n]? = some c
    · rw [if_pos hc]
      by_cases h5 : n = 5
      · subst h5
        exact absurd (full_of hc cs) h
      · rw [if_neg h5]
        rw [take_succ_of hc] at h ⊢
        exact ih (n + 1) (by omega) h
    · rw [if_neg hc]
      have h' := infix_right h
      by_cases h0 : header[0]? = some c
      · rw [if_pos h0]
        rw [first_of h0] at h' ⊢
        obtain ⟨k, hk, e⟩ := ih 1 (by omega) h'
        exact ⟨k, hk, by rw [e, List.append_assoc]⟩
      · rw [if_neg h0]
        have h'' : ¬ sig <:+: header.take 0 ++ cs := by
          rw [List.take_zero, List.nil_append]
          exact infix_right (a := [c]) h'
        obtain ⟨k, hk, e⟩ := ih 0 (by omega) h''
        rw [List.take_zero, List.nil_append] at e
        refine ⟨k, hk, ?_⟩
        rw [List.append_assoc, List.cons_append, ← e]

theorem run_sig (n : Nat) (hn : n ≤ 5) (rest : Bytes) : run (.look n) (sig ++ rest) = header.take n ++ run .eat rest := by
  rw [header_eq]
  have : n = 0 ∨ n = 1 ∨ n = 2 ∨ n = 3 ∨ n = 4 ∨ n = 5 := by omega
  rcases this with rfl | rfl | rfl | rfl | rfl | rfl <;> simp [run, sig, header_eq]

/-- What comes before the first header is copied, whatever `x` and `y` are. -/
theorem run_before {x y : Bytes} (hx : ∀ n, n ≤ 5 → run (.look n) x = header.take n ++ y) (cs : Bytes) :
    ∀ n, n ≤ 5 → ¬ sig <:+: header.take n ++ cs → run (.look n) (cs ++ x) = header.take n ++ cs ++ y := by
  induction cs with
  | nil =>
    intro n hn _
    rw [List.nil_append, hx n hn, List.append_nil]
  | cons c cs ih =>
    intro n hn h
    rw [List.cons_append]
    rw [run_look]
    by_cases hc : header[n]? = some c
    · rw [if_pos hc]
      by_cases h5 : n = 5
      · subst h5
        exact absurd (full_of hc cs) h
      · rw [if_neg h5]
        rw [take_succ_of hc] at h ⊢
        exact ih (n + 1) (by omega) h
    · rw [if_neg hc]
      have h' := infix_right h
      by_cases h0 : header[0]? = some c
      · rw [if_pos h0]
        rw [first_of h0] at h' ⊢
        rw [ih 1 (by omega) h']
        simp only [List.append_assoc]
      · rw [if_neg h0]
        have h'' : ¬ sig <:+: header.take 0 ++ cs := by
          rw [List.take_zero, List.nil_append]
          exact infix_right (a := [c]) h'
        rw [ih 0 (by omega) h'']
        simp

theorem run_header (cs rest : Bytes) : ∀ n, n ≤ 5 → ¬ sig <:+: header.take n ++ cs →
    run (.look n) (cs ++ (sig ++ rest)) = header.take n ++ cs ++ run .eat rest :=
  run_before (fun n hn => run_sig n hn rest) cs

theorem run_begin (k : Nat) (hk : 0 < k) (hk5 : k ≤ 5) (n : Nat) (hn : n ≤ 5) : run (.look n) (sig.take k) = header.take n ++ [] := by
  have h1 : k = 1 ∨ k = 2 ∨ k = 3 ∨ k = 4 ∨ k = 5 := by omega
  have h2 : n = 0 ∨ n = 1 ∨ n = 2 ∨ n = 3 ∨ n = 4 ∨ n = 5 := by omega
  rw [header_eq]
  rcases h1 with rfl | rfl | rfl | rfl | rfl <;> rcases h2 with rfl | rfl | rfl | rfl | rfl | rfl <;> simp [run, sig, header_eq]

theorem run_eat (t r : Bytes) (h : 0 ∉ t) : run .eat (t ++ 0 :: r) = run (.look 0) r := by
  induction t with
  | nil => simp [run]
  | cons c t ih =>
    have hc : c ≠ 0 := fun e => h (by simp [e])
    rw [List.cons_append]
    rw [run_eat_cons]
    rw [if_neg hc]
    exact ih fun hm => h (List.mem_cons_of_mem _ hm)

theorem run_eat_end (t : Bytes) (h : 0 ∉ t) : run .eat t = [] := by
  induction t with
  | nil => simp [run]
  | cons c t ih =>
    have hc : c ≠ 0 := fun e => h (by simp [e])
    rw [run_eat_cons]
    rw [if_neg hc]
    exact ih fun hm => h (List.mem_cons_of_mem _ hm)

/-- **C105, what is removed (partial)**: the output is the file without its headers, but for at most five bytes at the end, which are
the beginning of a header.  Missing: that they are kept, see `C105_end_violated`. -/
theorem C105_strip_partial (file o : Bytes) (h : Stripped file o) : ∃ k, k ≤ 5 ∧ o = strip file ++ sig.take k := by
  unfold strip
  induction h with
  | none h =>
    obtain ⟨k, hk, e⟩ := run_copy _ 0 (by omega) (by simpa using h)
    exact ⟨k, hk, by simpa using e⟩
  | @header a t r o h ht _ ih =>
    obtain ⟨k, hk, e⟩ := ih
    refine ⟨k, hk, ?_⟩
    have := run_header a (t ++ 0 :: r) 0 (by omega) (by simpa using h)
    rw [run_eat t r ht] at this
    rw [show a ++ sig ++ t ++ 0 :: r = a ++ (sig ++ (t ++ 0 :: r)) by simp, this, e]
    simp
  | @cut a t h ht =>
    refine ⟨0, by omega, ?_⟩
    have := run_header a t 0 (by omega) (by simpa using h)
    rw [run_eat_end t ht] at this
    rw [show a ++ sig ++ t = a ++ (sig ++ t) by simp, this]
    simp

/-- **C105, exact**: if what is left does not end with the beginning of a header, it is written as it is. -/
theorem C105_strip_exact_partial (file o : Bytes) (h : Stripped file o) (hend : ∀ k, 0 < k → k ≤ 5 → ¬ sig.take k <:+ o) :
    strip file = o := by
  obtain ⟨k, hk, e⟩ := C105_strip_partial file o h
  rcases Nat.eq_zero_or_pos k with rfl | hp
  · rw [e]; simp
  · exact absurd ⟨strip file, e.symm⟩ (hend k hp hk)

/-- **C105, every file is meant**: each file has a form without headers. -/
theorem C105_every_file (file : Bytes) : ∃ o, Stripped file o := by
  induction hn : file.length using Nat.strong_induction_on generalizing file with
  | _ n ih =>
    by_cases h : sig <:+: file
    · classical
      have hex : ∃ m, ∃ a s, a.length = m ∧ file = a ++ sig ++ s := by
        obtain ⟨a, s, e⟩ := h
        exact ⟨_, a, s, rfl, e.symm⟩
      obtain ⟨a, s, hl, e⟩ := Nat.find_spec hex
      have ha : ¬ sig <:+: a := by
        rintro ⟨b, c, e'⟩
        have hlt : b.length < Nat.find hex := by
          rw [← hl, ← e']
          simp [sig]
        exact Nat.find_min hex hlt ⟨b, c ++ sig ++ s, rfl, by rw [e, ← e']; simp⟩
      by_cases h0 : (0 : Byte) ∈ s
      · obtain ⟨t, r, es, ht⟩ := List.eq_append_cons_of_mem h0
        obtain ⟨o, ho⟩ := ih r.length (by rw [← hn, e, es]; simp; omega) r rfl
        refine ⟨a ++ o, ?_⟩
        rw [e, es, show a ++ sig ++ (t ++ 0 :: r) = a ++ sig ++ t ++ 0 :: r by simp]
        exact .header ha ht ho
      · exact ⟨a, by rw [e]; exact .cut ha h0⟩
    · exact ⟨file, .none h⟩

/-- **C105, violated at the end of the file**: whenever a file without a header ends with a beginning of the text `HFST3`, this end
is lost. -/
theorem C105_end_violated (a : Bytes) (k : Nat) (hk : 0 < k) (hk5 : k ≤ 5) (h : ¬ sig <:+: a ++ sig.take k) :
    Stripped (a ++ sig.take k) (a ++ sig.take k) ∧ strip (a ++ sig.take k) = a ∧ strip (a ++ sig.take k) ≠ a ++ sig.take k := by
  have ha : ¬ sig <:+: a := fun hb => h (hb.trans (List.prefix_append a _).isInfix)
  have e : strip (a ++ sig.take k) = a := by
    have := run_before (run_begin k hk hk5) a 0 (by omega) (by simpa using ha)
    simpa [strip] using this
  refine ⟨.none h, e, fun e' => ?_⟩
  rw [e] at e'
  have := congrArg List.length e'
  simp [sig] at this
  omega

example : ¬ sig <:+: [7, 72, 70] ++ sig.take 3 := by decide +kernel

/-- **C105, violated for the headers the library writes**: the header of every transducer written by the library begins with `HFST` and
a NUL, and so does what hfst-strip-header makes of the file. -/
theorem C105_written_violated (type : FstType) (props extra : List (Bytes × Bytes)) (body : Bytes) :
    ascii "HFST" ++ [0] <+: strip ((writeHeader type props extra).1 ++ body) := by
  have key : ∀ rest, strip ([72, 70, 83, 84, 0] ++ rest) = [72, 70, 83, 84, 0] ++ strip rest := by
    intro rest
    simp [strip, run, header_eq, sig]
  have hs : ascii "HFST" ++ [0] = [72, 70, 83, 84, 0] := by decide +kernel
  unfold writeHeader
  simp only [hs]
  split
  · rw [key]
    exact List.prefix_append _ _
  · simp only [List.append_assoc]
    rw [key]
    exact List.prefix_append _ _

/-! ## Cases that meet the hypotheses -/

/-- Two headers, the second after bytes that begin like one. -/
example : strip (sig ++ [65, 0, 1, 2, 72, 70] ++ sig ++ [66, 0, 3]) = [1, 2, 72, 70, 3] := by decide +kernel

example : Stripped (sig ++ [65, 0, 1, 2, 72, 70] ++ sig ++ [66, 0, 3]) [1, 2, 72, 70, 3] := by
  have h1 : Stripped [3] [3] := .none (by decide +kernel)
  have h2 : Stripped ([1, 2, 72, 70] ++ sig ++ [66] ++ 0 :: [3]) ([1, 2, 72, 70] ++ [3]) := .header (by decide +kernel) (by decide +kernel) h1
  have h3 := Stripped.header (a := []) (t := [65]) (by decide +kernel) (by decide +kernel) h2
  simpa using h3

example : ∀ k, 0 < k → k ≤ 5 → ¬ sig.take k <:+ [1, 2, 72, 70, 3] := by
  intro k hp hk
  have : k = 1 ∨ k = 2 ∨ k = 3 ∨ k = 4 ∨ k = 5 := by omega
  rcases this with rfl | rfl | rfl | rfl | rfl <;> decide +kernel

end Hfst.StripHeader
