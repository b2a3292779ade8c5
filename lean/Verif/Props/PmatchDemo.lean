import Verif.Props.PmatchText

/-!
# C63: cases in which the theorems hold, and cases in which text is lost
-/
namespace Hfst.Pmatch
open Hfst.Basic Hfst.Ol

/-- The bytes of a string of ASCII characters. -/
def ascii (s : String) : Bytes := s.toList.map fun c => c.toNat.toUInt8

/-- An alphabet with the symbols epsilon, `@PMATCH_ENTRY@`, `@PMATCH_EXIT@`, `@PMATCH_ENDTAG_W@`, `a`, `b`. -/
def demoAlphabet : PmAlphabet where
  base := ⟨[ascii "@_EPSILON_SYMBOL_@", ascii "@PMATCH_ENTRY@", ascii "@PMATCH_EXIT@", ascii "@PMATCH_ENDTAG_W@", [97], [98]], noSymbol, noSymbol, noSymbol⟩
  fd := .empty
  entry := 1
  exit := 2
  passthrough := noSymbol
  boundary := noSymbol
  alpha := noSymbol
  upper := noSymbol
  lower := noSymbol
  space := noSymbol
  inputMark := noSymbol
  endTags := [(3, [87])]
  capture2captured := List.replicate 6 noSymbol
  captured2capture := List.replicate 6 noSymbol
  symbol2lists := List.replicate 6 noSymbol
  list2symbols := List.replicate 6 noSymbol
  symbolLists := []
  exclusions := []
  globalFlags := []
  printable := [false, false, false, false, true, true]
  rtns := List.replicate 6 none
  isUpper := fun _ => false
  isLower := fun _ => false
  isSpace := fun _ => false

/-- A header of a state that is not final. -/
def hollow : Trans := ⟨noSymbol, noSymbol, noIndex, 0⟩

/-- The tables of a transducer that puts `ab` between the tags `<W>` and `</W>`. -/
def demoTables : Tables where
  indices := [⟨noSymbol, noIndex⟩, ⟨0, targetStart⟩] ++ List.replicate 5 ⟨noSymbol, noIndex⟩
  transitions := [⟨0, 1, targetStart + 1, 0⟩, hollow, ⟨4, 4, targetStart + 3, 0⟩, hollow, ⟨5, 5, targetStart + 5, 0⟩, hollow,
    ⟨0, 3, targetStart + 7, 0⟩, hollow, ⟨0, 2, targetStart + 9, 0⟩, ⟨noSymbol, noSymbol, 1, 0⟩, hollow]
  orig := 6

/-- The container of the example. -/
def demoContainer : Container := ⟨[demoTables], fun w => (w : Int), ⟨false, fun _ => 1⟩, 100, [], false, false, true⟩

/-- The encoder for a table. -/
def encoderFor (table : List Bytes) : Encoder := match Encoder.make table table.length with
  | .ok e => e
  | _ => ⟨.empty, fun _ => noSymbol⟩

/-- The memory at the beginning. -/
def demoMemory (al : PmAlphabet) : Memory := ⟨al, encoderFor al.base.table⟩

/-- The state at the beginning, with junk for the weight that is never set. -/
def demoState (junk : Int) : State where
  tape := []
  entries := []
  captures := []
  weight := 0
  depth := 0
  calls := []
  stacks := fun _ => [⟨.init 0, false⟩]
  globals := .init 0
  bestResult := []
  bestCaptures := []
  bestPos := 0
  bestWeight := junk
  found := []

theorem ready_demo (al : PmAlphabet) (h : ∀ x ∈ al.base.table, x ≠ [] ∧ 0 ∉ x) : Ready (demoMemory al) := by
  obtain ⟨e, he, _⟩ := make_knows (Nat.le_refl al.base.table.length) h
  show Encoder.make al.base.table al.base.table.length = .ok (encoderFor al.base.table)
  unfold encoderFor
  rw [he]

theorem demo_strings : ∀ x ∈ demoAlphabet.base.table, x ≠ [] ∧ (0 : UInt8) ∉ x := by decide +kernel

theorem demo_marks : Marks demoAlphabet where
  size := rfl
  nonempty := by decide +kernel
  strings := demo_strings
  epsilon := rfl
  ends := by
    intro x hx
    rcases hx with rfl | rfl
    · exact .inr (by decide +kernel)
    · exact .inr (by decide +kernel)
  boundary := fun h => absurd rfl h
  tags := by
    intro x hx
    have : x = 3 := by
      unfold PmAlphabet.isEndTag demoAlphabet at hx
      simp at hx
      exact hx.symm
    rw [this]
    decide +kernel

theorem demo_not_generic : ∀ e ∈ demoTables.transitions, e.input ≠ noSymbol → ¬ Generic demoAlphabet e.input := by
  intro e he hne hg
  rcases hg with h | h | h | h | h | h | h | h | ⟨l, hl, _⟩
  · exact hne h
  · exact hne h
  · exact hne h
  · exact hne h
  · exact hne h
  · exact hne h
  · exact hne h
  · cases h
  · cases hl

theorem demo_faithful : Faithful demoAlphabet [demoTables] where
  generic := by
    intro T hT e he hne hg
    rw [List.mem_singleton] at hT
    subst hT
    exact absurd hg (demo_not_generic e he hne)
  tags := by
    intro T hT
    rw [List.mem_singleton] at hT
    subst hT
    decide +kernel

theorem demo_marker : Marker demoAlphabet [demoTables] where
  reads := by
    intro T hT
    rw [List.mem_singleton] at hT
    subst hT
    have : ∀ e ∈ demoTables.transitions, e.input ≠ 0 → e.output = e.input := by decide +kernel
    exact fun e he h => .inl (this e he h)
  marks := by
    intro T hT
    rw [List.mem_singleton] at hT
    subst hT
    decide +kernel

theorem plain_of {al : PmAlphabet} {text : Bytes} {n : Nat} (hn : text.length < n)
    (h : ∀ k, k < al.base.table.length → al.isPrintable k = false → n ≤ ((al.base.table[k]?).getD []).length) : Plain al text := by
  intro k x hk hp hin
  have := h k (List.getElem?_eq_some_iff.mp hk).1 hp
  rw [hk] at this
  have h2 := hin.length_le
  have h3 : ((some x).getD []).length = x.length := rfl
  omega

/-- The text `xaby`. -/
def demoText : Bytes := [120, 97, 98, 121]

theorem demo_fit : Fit demoContainer (demoMemory demoAlphabet) demoText where
  ready := ready_demo _ demo_strings
  marks := demo_marks
  faithful := demo_faithful
  plain := plain_of (n := 10) (by decide) (by decide +kernel)
  clean := fun h => by cases h
  ends := by decide
  room := by decide +kernel

/-- The first part of a result. -/
def firstOf {α β : Type} (x : Outcome (α × β)) : Outcome α := x.bind fun r => .ok r.1

theorem firstOf_ok {α β : Type} {x : Outcome (α × β)} {a : α} (h : firstOf x = .ok a) : ∃ b, x = .ok (a, b) := by
  unfold firstOf at h
  rw [bind_ok] at h
  obtain ⟨r, h1, h2⟩ := h
  injection h2 with h2
  exact ⟨r.2, by rw [h1, ← h2]⟩

/-- `xaby` becomes `x<W>ab</W>y`. -/
theorem demo_match : firstOf (matchText id demoContainer none 10 (demoMemory demoAlphabet) demoText (demoState 0)) =
    .ok (ascii "x<W>ab</W>y") := by decide +kernel

example : Tagged (TagString demoAlphabet) demoText (ascii "x<W>ab</W>y") := by
  obtain ⟨m', h⟩ := firstOf_ok demo_match
  exact (C63_match_partial demo_fit demo_marker rfl rfl h).1

/-- The locations of `xaby` are `x`, `ab`, `y`, at 0, 1 and 3. -/
theorem demo_locate : firstOf (locateText id demoContainer none 10 (demoMemory demoAlphabet) demoText (demoState 0)) =
    .ok [[⟨0, 1, [120], nonmatching, [], 0, [], [], [[120]], [[120]]⟩],
      [⟨1, 2, [97, 98], [97, 98], [60, 87, 62], 0, [], [], [[97], [98]], [[97], [98]]⟩],
      [⟨3, 1, [121], nonmatching, [], 0, [], [], [[121]], [[121]]⟩]] := by decide +kernel

example : ∃ gs m', locateText id demoContainer none 10 (demoMemory demoAlphabet) demoText (demoState 0) = .ok (gs, m') ∧ gs.length = 3 ∧
    ∃ xs : List Bytes, xs.flatten = demoText ∧ Tiles (demoAlphabet.boundary = noSymbol) 0 xs gs := by
  obtain ⟨m', h⟩ := firstOf_ok demo_locate
  exact ⟨_, m', h, rfl, (C63_locate_partial (fun l => List.Perm.refl _) demo_fit h).1⟩

/-- The history theorem for the texts `xaby` and `yab`. -/
example : ∃ gs m', locateTexts id demoContainer none 10 [(demoText, demoState 0), ([121, 97, 98], demoState 5)] (demoMemory demoAlphabet) =
    .ok (gs, m') ∧ ∃ g xs, gs[1]? = some g ∧ xs.flatten = [121, 97, 98] ∧ Tiles (demoAlphabet.boundary = noSymbol) 0 xs g := by
  have h : (firstOf (locateTexts id demoContainer none 10 [(demoText, demoState 0), ([121, 97, 98], demoState 5)] (demoMemory demoAlphabet))).bind
      (fun gs => .ok gs.length) = .ok 2 := by decide +kernel
  rw [bind_ok] at h
  obtain ⟨gs, h1, h2⟩ := h
  obtain ⟨m', h1⟩ := firstOf_ok h1
  obtain ⟨h3, h4⟩ := C63_locate_history_partial (fun l => List.Perm.refl _) rfl _ _ _ _ demo_fit.ready demo_fit.marks demo_fit.faithful
    (by
      intro t ht
      rcases List.mem_cons.mp ht with rfl | ht
      · exact ⟨demo_fit.plain, demo_fit.ends⟩
      · rw [List.mem_singleton] at ht
        subst ht
        exact ⟨plain_of (n := 10) (by decide) (by decide +kernel), by decide⟩)
    (by decide +kernel) h1
  refine ⟨gs, m', h1, ?_⟩
  match gs, h3 with
  | [a, b], _ =>
    obtain ⟨xs, e1, e2⟩ := h4 1 _ b rfl rfl
    exact ⟨b, xs, rfl, e1, e2⟩

/-! ## Text that is lost -/

/-- A transducer that matches nothing. -/
def emptyTables : Tables := ⟨List.replicate 7 ⟨noSymbol, noIndex⟩, [hollow], 6⟩

/-- The alphabet with epsilon and `e`. -/
def accentAlphabet : PmAlphabet := { demoAlphabet with
  base := ⟨[ascii "@_EPSILON_SYMBOL_@", [101]], noSymbol, noSymbol, noSymbol⟩
  entry := noSymbol
  exit := noSymbol
  endTags := []
  printable := [false, true] }

/-- The container with `single_codepoint_tokenization`, for a text whose first character, `é`, has 3 bytes: `e` and the accent. -/
def accentContainer : Container := { demoContainer with nets := [emptyTables], cutter := ⟨true, fun s => if s.headD 0 = 101 then 3 else 1⟩ }

/-- C63 fails with `single_codepoint_tokenization`: if `e` is a known symbol, then of an `é` written as `e` with an accent only `e` is left. -/
theorem C63_single_violated : firstOf (matchText id accentContainer none 10 (demoMemory accentAlphabet) [101, 204, 129] (demoState 0)) =
    .ok [101] := by decide +kernel

/-- The alphabet with epsilon, `@_UNKNOWN_SYMBOL_@` and `b`. -/
def unknownAlphabet : PmAlphabet := { accentAlphabet with
  base := ⟨[ascii "@_EPSILON_SYMBOL_@", ascii "@_UNKNOWN_SYMBOL_@", [98]], 1, noSymbol, noSymbol⟩
  printable := [false, false, true] }

/-- The transducer of `?:b`. -/
def unknownTables : Tables where
  indices := [⟨noSymbol, noIndex⟩, ⟨noSymbol, noIndex⟩, ⟨1, targetStart⟩] ++ List.replicate 4 ⟨noSymbol, noIndex⟩
  transitions := [⟨1, 2, targetStart + 1, 0⟩, ⟨noSymbol, noSymbol, 1, 0⟩, hollow]
  orig := 3

/-- C63 fails for transitions from a symbol that stands for others to a plain symbol: the location of `x` shows an input without it. -/
theorem C63_generic_violated :
    firstOf (locateText id { demoContainer with nets := [unknownTables] } none 10 (demoMemory unknownAlphabet) [120] (demoState 0)) =
      .ok [[⟨0, 0, [], [98], [], 0, [], [], [], [[98]]⟩]] := by decide +kernel

/-- The alphabet with epsilon, `@BOUNDARY@` and `a`. -/
def boundaryAlphabet : PmAlphabet := { accentAlphabet with
  base := ⟨[ascii "@_EPSILON_SYMBOL_@", ascii "@BOUNDARY@", [97]], noSymbol, noSymbol, noSymbol⟩
  boundary := 1
  printable := [false, false, true] }

/-- The transducer of `@BOUNDARY@ a`. -/
def boundaryTables : Tables where
  indices := [⟨noSymbol, noIndex⟩, ⟨noSymbol, noIndex⟩, ⟨1, targetStart⟩] ++ List.replicate 4 ⟨noSymbol, noIndex⟩
  transitions := [⟨1, 1, targetStart + 1, 0⟩, hollow, ⟨2, 2, targetStart + 3, 0⟩, ⟨noSymbol, noSymbol, 1, 0⟩, hollow]
  orig := 3

/-- C63 fails if a match contains the boundary symbol: in `ax`, the location of `x` says that it starts after 2 symbols, although only one symbol
comes before it. -/
theorem C63_boundary_violated :
    firstOf (locateText id { demoContainer with nets := [boundaryTables] } none 10 (demoMemory boundaryAlphabet) [97, 120] (demoState 0)) =
      .ok [[⟨0, 1, [97], [97], [], 0, [], [], [[97]], [[97]]⟩], [⟨2, 1, [120], nonmatching, [], 0, [], [], [[120]], [[120]]⟩]] := by
  decide +kernel

end Hfst.Pmatch
