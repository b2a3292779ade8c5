import Verif.Props.XfstStack

/-!
# C94: where the commands differ from their help texts, and cases that meet the hypotheses

The networks of this file are finite sets of numbers, in place of sets of strings: `union` and `meet` are the operations of
`union net` and `intersect net`.
-/
namespace Hfst.Xfst
open Hfst.StdString Hfst.Basic

/-- The union of the cases below (`disjunct`, called in libhfst/src/parsers/XfstCompiler.cc:4436-4438; simplified to lists). -/
def union (a b : List Nat) : List Nat := a ++ b

/-- The intersection of the cases below (`intersect`, called in libhfst/src/parsers/XfstCompiler.cc:2514; simplified to lists). -/
def meet (a b : List Nat) : List Nat := a.filter fun x => decide (x ∈ b)

/-- The comparison of the cases below (`compare`, called in libhfst/src/parsers/XfstCompiler.cc:2515; simplified to lists). -/
def sameSet (a b : List Nat) : Bool := a.all (fun x => decide (x ∈ b)) && b.all fun x => decide (x ∈ a)

theorem meet_right (a b : List Nat) (w : Nat) : w ∈ meet a b ↔ w ∈ a ∧ w ∈ b := by simp [meet]

theorem empty_right (a : List Nat) : a.isEmpty = true ↔ ∀ w, ¬ w ∈ a := by
  rw [List.isEmpty_iff, List.eq_nil_iff_forall_not_mem]

theorem sameSet_right (a b : List Nat) : sameSet a b = true ↔ ∀ w, w ∈ a ↔ w ∈ b := by
  simp only [sameSet, Bool.and_eq_true, List.all_eq_true, decide_eq_true_eq]
  exact ⟨fun h w => ⟨h.1 w, h.2 w⟩, fun h => ⟨fun w => (h w).1, fun w => (h w).2⟩⟩

/-- A session with the given networks on the stack, without names (libhfst/src/parsers/XfstCompiler.cc:4080-4099, read one after the
other). -/
def withStack (l : List (List Nat)) : Session (List Nat) := { stack := l.map fun v => ⟨[], v⟩ }

/-- **C94, union (violated)**: `union net` is to be the "union of top two FSMs", but with three networks on the stack it is not: the
result contains what is only in the third one, and nothing is left below it. -/
theorem C94_union_violated :
    ∃ s : Session (List Nat), ∃ a b c, values s = [a, b, c] ∧
      ¬ ∃ r rest, values (iterate (fun _ _ => true) (fun x y => some (union x y)) id s) = r :: rest ∧
        (∀ w, w ∈ r ↔ w ∈ a ∨ w ∈ b) := by
  refine ⟨withStack [[1], [2], [3]], [1], [2], [3], rfl, ?_⟩
  rintro ⟨r, rest, h1, h2⟩
  have e : values (iterate (fun _ _ => true) (fun x y => some (union x y)) id (withStack [[1], [2], [3]])) = [[1, 2, 3]] := rfl
  rw [e] at h1
  simp only [List.cons.injEq] at h1
  have := (h2 3).1 (by rw [← h1.1]; simp)
  simp at this

/-- **C94, tests (violated)**: with three networks on the stack, `test overlap` can answer no although the top two have a string in
common, and `test sublanguage` can answer no although the top one is contained in the next one. -/
theorem C94_tests_violated :
    (∃ s : Session (List Nat), ∃ a b c, values s = [a, b, c] ∧ (∃ w, w ∈ a ∧ w ∈ b) ∧
      testOverlap meet List.isEmpty s = some false) ∧
    (∃ s : Session (List Nat), ∃ a b c, values s = [a, b, c] ∧ (∀ w, w ∈ a → w ∈ b) ∧
      testSublanguage meet sameSet s = some false) :=
  ⟨⟨withStack [[1], [1], [2]], [1], [1], [2], rfl, ⟨1, by simp, by simp⟩, by decide +kernel⟩,
    ⟨withStack [[1], [1], [2]], [1], [1], [2], rfl, fun _ h => h, by decide +kernel⟩⟩

/-- **C94, names (violated)**: after `define X`, `save defined` and, in a session that has another `X`, `load defined`, the command
`push defined X` gives the new network, but the regular expression `X` still the old one. -/
theorem C94_names_violated :
    ∃ (cs cs' : List (Command (List Nat))) (file : List (Net (List Nat))) (n : Str) (v w : List Nat), NoLoad cs ∧ NoLoad cs' ∧
      writeDefinitions (run cs) = some file ∧ v ≠ w ∧
      Pushes (step (run cs') (.loadDefined file)) n v ∧ Reads (step (run cs') (.loadDefined file)) n w := by
  refine ⟨[.readRegex fun _ => some [1], .defineTop ['X']], [.readRegex fun _ => some [2], .defineTop ['X']], [⟨['X'], [1]⟩], ['X'],
    [1], [2], ?_, ?_, rfl, by decide, ?_, ?_⟩
  · intro f hf; simp at hf
  · intro f hf; simp at hf
  · rw [pushes_iff]; rfl
  · rw [reads_iff]; rfl

/-- **C94, names in a new session (violated)**: a definition that is loaded into a new session is not known to regular expressions. -/
theorem C94_unknown_violated :
    ∃ (cs : List (Command (List Nat))) (file : List (Net (List Nat))) (n : Str) (v : List Nat),
      writeDefinitions (run cs) = some file ∧ Pushes (loadDefined file {}) n v ∧ ∀ w, ¬ Reads (loadDefined file {}) n w := by
  refine ⟨[.readRegex fun _ => some [1], .defineTop ['X']], [⟨['X'], [1]⟩], ['X'], [1], rfl, ?_, ?_⟩
  · rw [pushes_iff]; rfl
  · intro w; rw [reads_iff]; intro h; cases h

/-- **C94, one definition in a file (violated)**: a network without a name that is defined and written with `write definition` cannot
be restored with `load defined`, unless `name-nets` is on: for every session that loads the file, nothing is defined by it. -/
theorem C94_write_definition_violated (α : Type) (n : Str) (v : α) (s : Session α) (ts : List (Net α))
    (h : s.stack = ⟨[], v⟩ :: ts) (ho : s.nameNets = false) :
    ∃ file, writeDefinition n (defineTop n s) = some file ∧ ∀ s' : Session α, loadDefined file s' = s' := by
  refine ⟨[⟨[], v⟩], ?_, fun s' => rfl⟩
  unfold defineTop
  rw [h]
  simp [writeDefinition, define, mapGet_put, ho]

/-- What `C94_write_definition_violated` lacks: with `name-nets` on, the definition comes back. -/
theorem C94_write_definition_partial (α : Type) (n : Str) (hn : n ≠ []) (v : α) (s : Session α) (hp : Pushes s n v)
    (ho : s.nameNets = true) (s' : Session α) :
    ∃ file, writeDefinition n s = some file ∧ Pushes (loadDefined file s') n v ∧
      ∀ m w, m ≠ n → (Pushes (loadDefined file s') m w ↔ Pushes s' m w) := by
  rw [pushes_iff] at hp
  cases hg : mapGet s.defs n with
  | none => rw [hg] at hp; cases hp
  | some t =>
    rw [hg] at hp
    have hv : t.value = v := by simpa using hp
    have he : n.isEmpty = false := by cases n with
      | nil => exact absurd rfl hn
      | cons => rfl
    have hl : loadDefined [{ t with name := n }] s' = { s' with defs := mapPut s'.defs n { t with name := n } } := by
      simp [loadDefined, addLoaded, hn]
    refine ⟨[{ t with name := n }], by simp [writeDefinition, hg, ho], ?_, fun m w hm => ?_⟩
    · rw [pushes_iff, hl]; simp [mapGet_put, hv]
    · rw [pushes_iff, pushes_iff, hl]; simp [mapGet_put, hm]

/-! ## Cases that meet the hypotheses -/

/-- Three networks: `turn stack` puts the last one on top. -/
example : values (turn (withStack [[1], [2], [3]])) = [[3], [2], [1]] := by rw [C94_turn]; rfl

/-- Two networks are rotated. -/
example : Rotation (withStack [[1], [2]]).stack (rotate (withStack [[1], [2]])).stack :=
  (C94_rotate_partial _ (by decide)).1

/-- Three different networks are not. -/
example : ¬ Rotation (withStack [[1], [2], [3]]).stack (rotate (withStack [[1], [2], [3]])).stack :=
  C94_rotate_violated ⟨[], [1]⟩ ⟨[], [2]⟩ ⟨[], [3]⟩ (by simp) (by simp) (by simp) _ rfl

/-- Saving three networks and loading them on top of another one. -/
example : ∃ file, (writeStack (withStack [[1], [2], [3]])).1 = some file ∧
    values (loadStack file (withStack [[4]])) = [[1], [2], [3], [4]] := by
  obtain ⟨f, h1, h2⟩ := C94_save_load (withStack [[1], [2], [3]]) (withStack [[4]]) (by simp [withStack])
  exact ⟨f, by rw [h1], by rw [h2]; rfl⟩

/-- A history that defines a name twice, uses it in an expression, and takes another name away. -/
def history : List (Command (List Nat)) :=
  [.readRegex fun _ => some [1], .defineTop ['X'], .defineRegex ['Y'] (fun d => (d ['X']).map fun x => union x [2]),
    .push ['Y'], .defineTop ['X'], .undefine [['Y']]]

theorem history_noLoad : NoLoad history := by intro f hf; simp [history] at hf

/-- After it, the name stands for the second network in both ways. -/
example : Pushes (run history) ['X'] [1, 2] ∧ Reads (run history) ['X'] [1, 2] := by
  have h : Pushes (run history) ['X'] [1, 2] := by rw [pushes_iff]; rfl
  exact ⟨h, (C94_names_partial history history_noLoad _ _).1 h⟩

/-- The other name stands for nothing. -/
example : ¬ Pushes (run history) ['Y'] [1, 2] := by
  intro h
  have e : run history = undefine [['Y']] (run (history.take 5)) := rfl
  rw [e] at h
  exact (((C94_undefine (run (history.take 5)) [['Y']]).2 ['Y'] [1, 2]).1 h).1 (by simp)

/-- Its definitions come back from a file. -/
example : ∃ file, writeDefinitions (run history) = some file ∧ Pushes (loadDefined file {}) ['X'] [1, 2] := by
  refine ⟨_, rfl, ?_⟩
  exact ((C94_definitions history _ rfl {} ['X'] (by simp) [1, 2]).2).2 (Or.inl (by rw [pushes_iff]; rfl))

/-- A definition takes the top of the stack. -/
example : (defineTop ['X'] (withStack [[1], [2]])).stack = [⟨[], [2]⟩] ∧ Reads (defineTop ['X'] (withStack [[1], [2]])) ['X'] [1] := by
  have h := C94_define (withStack [[1], [2]]) ['X'] ⟨[], [1]⟩ [⟨[], [2]⟩] rfl
  exact ⟨h.1, (h.2.2.1 [1]).2 rfl⟩

/-- An operation on two of three networks, and one that is not available. -/
example : values (binary (fun x y => some (meet x y)) (withStack [[1, 2], [2], [3]])) = [[2], [3]] ∧
    unary (fun _ => none) (withStack [[1, 2], [2]]) = withStack [[1, 2], [2]] :=
  ⟨(C94_operations (withStack [[1, 2], [2], [3]]) (fun _ => none) (fun x y => some (meet x y))).2.2.2.1 _ _ _ _ rfl rfl,
    (C94_operations (withStack [[1, 2], [2]]) (fun _ => none) (fun _ _ => none)).2.1 _ _ rfl rfl⟩

/-- The union of three networks. -/
example : values (iterate (fun _ _ => true) (fun x y => some (union x y)) id (withStack [[1], [2], [3]])) = [[1, 2, 3]] :=
  (C94_iterate_partial (fun _ _ => true) (fun x y => some (union x y)) union id (fun _ _ => rfl) (fun _ _ => rfl) _).1 [1] [2] [[3]]
    rfl

/-- A composition that fails takes the top network with it. -/
example : (iterate (fun _ _ => true) (fun _ _ => none) id (withStack [[1], [2]])).stack = [⟨[], [2]⟩] :=
  (C94_lost_violated (fun _ _ => true) (fun _ _ => none) id (withStack [[1], [2]]) ⟨[], [1]⟩ ⟨[], [2]⟩ [] rfl rfl rfl).1

/-- The tests on two networks. -/
example : testOverlap meet List.isEmpty (withStack [[1, 2], [2, 3]]) = some true ∧
    testSublanguage meet sameSet (withStack [[2], [2, 3]]) = some true :=
  ⟨(C94_tests_partial (fun a w => w ∈ a) meet List.isEmpty sameSet meet_right empty_right sameSet_right _ [1, 2] [2, 3] [] rfl).2.1 rfl
      ⟨2, by simp, by simp⟩,
    (C94_tests_partial (fun a w => w ∈ a) meet List.isEmpty sameSet meet_right empty_right sameSet_right _ [2] [2, 3] [] rfl).2.2.2 rfl
      (by intro w h; simp only [List.mem_cons, List.not_mem_nil, or_false] at h ⊢; exact Or.inl h)⟩

/-- A definition is written and lost. -/
example : ∃ file, writeDefinition ['X'] (defineTop ['X'] (withStack [[1], [2]])) = some file ∧
    ∀ s' : Session (List Nat), loadDefined file s' = s' :=
  C94_write_definition_violated _ ['X'] [1] _ _ rfl rfl

/-- With `name-nets` on it comes back. -/
example : ∃ file, writeDefinition ['X'] (defineTop ['X'] { withStack [[1], [2]] with nameNets := true }) = some file ∧
    Pushes (loadDefined file ({} : Session (List Nat))) ['X'] [1] := by
  obtain ⟨f, h1, h2, _⟩ := C94_write_definition_partial (List Nat) ['X'] (by simp) [1]
    (defineTop ['X'] { withStack [[1], [2]] with nameNets := true }) (by rw [pushes_iff]; rfl) rfl {}
  exact ⟨f, h1, h2⟩

end Hfst.Xfst
