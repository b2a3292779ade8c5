import Verif.Props.ExpandEquiv

/-!
# C97: cases that meet the hypotheses
-/
namespace Hfst.Expand
open Hfst.StdString Hfst.Basic

/-- A library whose transducers are the relations themselves (it stands for the functions called in
tools/src/hfst-expand-equivalences.cc:232-233, 245-246, 396-411). -/
def relations : Library (List Sym → List Sym → Prop) where
  pair x y :=
    if x = identity ∧ y = identity then fun u v => ∃ c, Ordinary c ∧ u = [c] ∧ v = [c]
    else fun u v => u = strOf x ∧ v = strOf y
  disjunct s t := fun u v => s u v ∨ t u v
  compose s t := fun u v => ∃ w, s u w ∧ t w v
  minimize t := t
  star t := Repeated t
  invert t := fun u v => t v u

/-- What is assumed of the library can be met. -/
theorem relations_lawful : Lawful relations fun t => t where
  identity u v := by simp [relations]
  pair x y _ _ px _ u v := by
    have : ¬ (x = identity ∧ y = identity) := fun h => px.2 h.1
    simp only [relations, if_neg this]
  disjunct _ _ _ _ := Iff.rfl
  compose _ _ _ _ := Iff.rfl
  minimize _ _ _ := Iff.rfl
  star _ _ _ := Iff.rfl
  invert _ _ _ := Iff.rfl

/-- A file with a comment, an empty line, a line with two equivalents and a line without a newline. -/
def demoFile : List Str := ["# s\n".toList, "\n".toList, "s\tz\tx\n".toList, "a\tb".toList]

theorem demo_fromFile : FromFile demoFile := by
  intro l hl
  simp only [demoFile, List.mem_cons, List.not_mem_nil, or_false] at hl
  rcases hl with rfl | rfl | rfl | rfl
  · exact ⟨by decide, "# s".toList, by decide, Or.inr (by decide)⟩
  · exact ⟨by decide, [], by decide, Or.inr (by decide)⟩
  · exact ⟨by decide, "s\tz\tx".toList, by decide, Or.inr (by decide)⟩
  · exact ⟨by decide, "a\tb".toList, by decide, Or.inl (by decide)⟩

theorem demo_inFormat : InFormat demoFile := by
  intro l hl
  simp only [demoFile, List.mem_cons, List.not_mem_nil, or_false] at hl
  rcases hl with rfl | rfl | rfl | rfl
  · exact Or.inr (Or.inl ⟨" s\n".toList, by decide, by decide⟩)
  · exact Or.inl (by decide)
  · exact Or.inr (Or.inr ⟨['s'], ['z'], [['x']], by unfold Fields; decide, Or.inr (by decide)⟩)
  · exact Or.inr (Or.inr ⟨['a'], ['b'], [], by unfold Fields; decide, Or.inl (by decide)⟩)

/-- A file that is not in the format: a line without a tab that is not a comment. -/
example : FromFile ["s z\n".toList] ∧ ¬ InFormat ["s z\n".toList] := by
  have h : FromFile ["s z\n".toList] := by
    intro l hl
    rw [List.mem_singleton] at hl
    subst hl
    exact ⟨by decide, "s z".toList, by decide, Or.inr (by decide)⟩
  refine ⟨h, (readLines_none relations _ h fun _ _ => False).1 ?_⟩
  rfl

theorem demo_says {x y : Sym} (h : Says demoFile x y) : (x = ['s'] ∧ (y = ['z'] ∨ y = ['x'])) ∨ (x = ['a'] ∧ y = ['b']) := by
  obtain ⟨l, hl, ys, h1, h2, h3⟩ := h
  simp only [demoFile, List.mem_cons, List.not_mem_nil, or_false] at hl
  rcases hl with rfl | rfl | rfl | rfl
  · obtain ⟨e, _⟩ := (fields_iff (text := "# s".toList) (by decide) (Or.inr (by decide)) x ys).1 ⟨h1, h2⟩
    rw [show pieces "# s".toList = [['#', ' ', 's']] from by decide, List.cons.injEq] at e
    rw [← e.2] at h3
    cases h3
  · obtain ⟨e, _⟩ := (fields_iff (text := []) (by decide) (Or.inr (by decide)) x ys).1 ⟨h1, h2⟩
    rw [show pieces [] = [[]] from rfl, List.cons.injEq] at e
    rw [← e.2] at h3
    cases h3
  · obtain ⟨e, _⟩ := (fields_iff (text := "s\tz\tx".toList) (by decide) (Or.inr (by decide)) x ys).1 ⟨h1, h2⟩
    rw [show pieces "s\tz\tx".toList = [['s'], ['z'], ['x']] from by decide, List.cons.injEq] at e
    rw [← e.2] at h3
    left
    simpa [e.1.symm] using h3
  · obtain ⟨e, _⟩ := (fields_iff (text := "a\tb".toList) (by decide) (Or.inl (by decide)) x ys).1 ⟨h1, h2⟩
    rw [show pieces "a\tb".toList = [['a'], ['b']] from by decide, List.cons.injEq] at e
    rw [← e.2] at h3
    right
    simpa [e.1.symm] using h3

theorem demo_plain (x y : Sym) (h : Says demoFile x y) : Plain x ∧ Plain y := by
  rcases demo_says h with ⟨rfl, rfl | rfl⟩ | ⟨rfl, rfl⟩ <;> exact ⟨by constructor <;> decide +kernel, by constructor <;> decide +kernel⟩

/-- A transducer that accepts the pair of `sa` and `n`. -/
def word (u v : List Sym) : Prop := u = [['s'], ['a']] ∧ v = [['n']]

/-- An archive with the transducer two times: the first copy accepts `xb` as well, the second one does not, although the file is the
same. -/
example : ∃ w w', expandStream relations true { tsv := some demoFile } [word, word] = ⟨[w, w'], .success⟩ ∧
    w [['x'], ['b']] [['n']] ∧ ¬ w' [['x'], ['b']] [['n']] := by
  obtain ⟨w, e, m⟩ := (C97_file_partial relations_lawful true demoFile demo_fromFile demo_plain .first word).1 demo_inFormat
  obtain ⟨w1, same, e1, m1⟩ := C97_archive_violated relations_lawful true demoFile demo_fromFile demo_inFormat .first word [word]
  have hw : w = w1 := by
    have h1 : (expandStream relations true { tsv := some demoFile } [word]).written.head? =
        (expandStream relations true { tsv := some demoFile } [word, word]).written.head? := rfl
    rw [e, e1] at h1
    exact Option.some.inj h1
  have ord : ∀ c : Sym, c = ['x'] ∨ c = ['b'] ∨ c = ['n'] → Ordinary c := by
    rintro c (rfl | rfl | rfl) <;> exact ⟨by decide +kernel, by decide +kernel, by decide +kernel⟩
  refine ⟨w1, same word, e1, ?_, ?_⟩
  · rw [← hw]
    refine (m _ _).2 ⟨[['s'], ['a']], ?_, rfl, rfl⟩
    have s1 : Says demoFile ['s'] ['x'] :=
      ⟨"s\tz\tx\n".toList, by decide, [['z'], ['x']], by unfold Fields; decide, Or.inr (by decide), by decide⟩
    have s2 : Says demoFile ['a'] ['b'] :=
      ⟨"a\tb".toList, by decide, [['b']], by unfold Fields; decide, Or.inl (by decide), by decide⟩
    have so : ∀ c : Char, strOf [c] = [[c]] := fun c => if_neg fun h => by
      have := congrArg List.length h
      rw [show List.length epsilon = 18 from by decide +kernel] at this
      cases this
    have := Written.change s1 (Written.change s2 (Written.nil (E := Says demoFile)))
    rw [so, so, so, so] at this
    exact this
  · intro h
    have := (m1 word [['x'], ['b']] [['n']] (fun c hc => ord c (by simp at hc; rcases hc with h | h <;> simp [h]))
      (fun c hc => ord c (by simp at hc; simp [hc]))).1 h
    exact absurd this.1 (by decide)

end Hfst.Expand
