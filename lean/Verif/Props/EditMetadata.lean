import Verif.Spec.EditMetadata
import Verif.Lemmas.Graph

/-!
# C102: hfst-edit-metadata adds and prints properties
-/
namespace Hfst.EditMeta
open Hfst.StdString Hfst.Basic

variable {α : Type}

theorem readOpt_add (s : Settings) (k v : Str) (hk : '=' ∉ k) :
    readOpt s (.add (k ++ '=' :: v)) = some { s with properties := mapPut s.properties k v, printAll := false } := by
  have hp : ∀ c ∈ k, decide (c ≠ '=') = true := fun c hc => by
    have : c ≠ '=' := fun h => hk (h ▸ hc)
    simpa using this
  have e1 : (k ++ '=' :: v).dropWhile (fun c => decide (c ≠ '=')) = '=' :: v := by
    rw [List.dropWhile_append_of_pos hp]; simp
  have e2 : (k ++ '=' :: v).takeWhile (fun c => decide (c ≠ '=')) = k := by
    rw [List.takeWhile_append_of_pos hp]; simp
  simp only [readOpt, e1, e2]

theorem asked_cons (p : Str × Str) (adds : List (Str × Str)) (k : Str) :
    asked (p :: adds) k = match asked adds k with
      | some v => some v
      | none => if p.1 = k then some p.2 else none := by
  unfold asked
  rw [List.reverse_cons, List.find?_append]
  cases h : adds.reverse.find? (fun p => decide (p.1 = k)) with
  | some x => simp
  | none => by_cases hk : p.1 = k <;> simp [hk]

theorem readOpts_adds (adds : List (Str × Str)) (h : ∀ p ∈ adds, '=' ∉ p.1) (rest : List Opt) (s : Settings) :
    ∃ props, readOpts s (addOptions adds ++ rest) =
        readOpts { s with properties := props, printAll := if adds = [] then s.printAll else false } rest ∧
      (∀ k, mapGet props k = match asked adds k with
        | some v => some v
        | none => mapGet s.properties k) ∧
      (∀ e ∈ props, e ∈ s.properties ∨ e ∈ adds) ∧
      ((s.properties.map (·.1)).Nodup → (props.map (·.1)).Nodup) := by
  induction adds generalizing s with
  | nil => exact ⟨s.properties, by simp [addOptions], fun k => rfl, fun e he => .inl he, id⟩
  | cons p adds ih =>
    obtain ⟨props, h1, h2, h3, h4⟩ := ih (fun q hq => h q (List.mem_cons_of_mem _ hq)) { s with properties := mapPut s.properties p.1 p.2, printAll := false }
    refine ⟨props, ?_, ?_, ?_, ?_⟩
    · have : addOptions (p :: adds) ++ rest = .add (p.1 ++ '=' :: p.2) :: (addOptions adds ++ rest) := rfl
      rw [this, readOpts, readOpt_add s p.1 p.2 (h p List.mem_cons_self)]
      simp only [h1]
      simp
    · intro k
      rw [h2, asked_cons]
      cases asked adds k with
      | some v => rfl
      | none =>
        simp only [mapGet_put]
        by_cases hk : p.1 = k
        · simp [hk]
        · have : k ≠ p.1 := fun e => hk e.symm
          simp [hk, this]
    · intro e he
      rcases h3 e he with h' | h'
      · simp only [mapPut, List.mem_cons, List.mem_filter] at h'
        rcases h' with rfl | h'
        · exact .inr List.mem_cons_self
        · exact .inl h'.1
      · exact .inr (List.mem_cons_of_mem _ h')
    · intro hn
      apply h4
      simp only [mapPut, List.map_cons, List.nodup_cons]
      refine ⟨by simp, (List.Sublist.map _ List.filter_sublist).nodup hn⟩

/-- What is left of a value (tools/src/hfst-edit-metadata.cc:211-220). -/
def cutTo (n : Nat) (v : Str) : Str := if n > 0 then v.take n else v

theorem setAll_ok (utf8 : Str → Bool) (n : Nat) (ps : Props) (hn : (ps.map (·.1)).Nodup)
    (h : ∀ p ∈ ps, (p.1 = "character-encoding".toList → p.2 = "utf-8".toList ∨ p.2 = "UTF-8".toList) ∧ utf8 (cutTo n p.2) = true) (props : Props) :
    ∃ r, setAll utf8 n ps props = .inl r ∧ ∀ k, mapGet r k = match mapGet ps k with
      | some v => some (cutTo n v)
      | none => mapGet props k := by
  induction ps generalizing props with
  | nil => exact ⟨props, rfl, fun k => rfl⟩
  | cons p ps ih =>
    obtain ⟨k0, v0⟩ := p
    simp only [List.map_cons, List.nodup_cons] at hn
    obtain ⟨hc, hu⟩ := h (k0, v0) List.mem_cons_self
    obtain ⟨r, h1, h2⟩ := ih hn.2 (fun q hq => h q (List.mem_cons_of_mem _ hq)) (mapPut props k0 (cutTo n v0))
    refine ⟨r, ?_, ?_⟩
    · rw [setAll, if_neg (by rintro ⟨e, h'⟩; exact h' (hc e))]
      have e : (if n > 0 then v0.take n else v0) = cutTo n v0 := rfl
      simp only [e]
      rw [if_pos hu, h1]
    · intro k
      rw [h2]
      have e : mapGet ((k0, v0) :: ps) k = if k0 = k then some v0 else mapGet ps k := by
        unfold mapGet
        by_cases hk : k0 = k <;> simp [hk]
      rw [e]
      by_cases hk : k0 = k
      · subst hk
        have : mapGet ps k0 = none := by
          cases hg : mapGet ps k0 with
          | none => rfl
          | some w => exact absurd (List.mem_map.2 ⟨_, mapGet_mem hg, rfl⟩) hn.1
        simp [this, mapGet_put]
      · have : k ≠ k0 := fun e => hk e.symm
        cases mapGet ps k <;> simp [hk, this, mapGet_put]

theorem loop_set (utf8 : Str → Bool) (toFile : Bool) (s : Settings) (ha : s.printAll = false) (hp : s.printName = none) (change : Props → Props)
    (h : ∀ props, setAll utf8 s.truncate s.properties props = .inl (change props)) (gs : List (α × Props)) :
    editLoop utf8 toFile s gs = ⟨gs.map fun g => .wrote g.1 (change g.2), .success⟩ := by
  induction gs with
  | nil => rfl
  | cons g gs ih =>
    have : editOne utf8 toFile s g = .inl (.wrote g.1 (change g.2)) := by simp [editOne, ha, hp, h]
    simp only [editLoop, this, ih]
    rfl

/-- **C102, -a (partial)**: with options `-a NAME=VALUE`, and `-t LEN` or not, each transducer of the archive gets the last value asked for,
cut to LEN bytes, for each name, and keeps its other properties and its content.  The values are those that are accepted: UTF-8 texts, also
after they are cut, and only UTF-8 as character encoding.  Missing: values that are no longer UTF-8 after they are cut
(`C102_truncate_violated`), and -p beside -a (`C102_add_print_violated`, `C102_order_violated`). -/
theorem C102_add_partial (utf8 : Str → Bool) (toFile : Bool) (adds : List (Str × Str)) (ne : adds ≠ []) (n : Nat)
    (h : ∀ p ∈ adds, '=' ∉ p.1 ∧ (p.1 = "character-encoding".toList → p.2 = "utf-8".toList ∨ p.2 = "UTF-8".toList) ∧
      utf8 p.2 = true ∧ utf8 (p.2.take n) = true) (gs : List (α × Props)) :
    Adds (fun v => v) adds gs (edit utf8 toFile (addOptions adds) gs) ∧
    (0 < n → Adds (fun v => v.take n) adds gs (edit utf8 toFile (addOptions adds ++ [.truncate n]) gs)) := by
  have go : ∀ (m : Nat), m = 0 ∨ m = n → ∀ rest, (∀ s : Settings, s.truncate = 0 → readOpts s rest = some { s with truncate := m }) →
      Adds (cutTo m) adds gs (edit utf8 toFile (addOptions adds ++ rest) gs) := by
    intro m hm rest hr
    obtain ⟨props, h1, h2, h3, h4⟩ := readOpts_adds adds (fun p hp => (h p hp).1) rest {}
    have hn := h4 (by simp)
    have hall := setAll_ok utf8 m props hn (fun p hp => by
      rcases h3 p hp with h' | h'
      · cases h'
      · obtain ⟨_, a, b, c⟩ := h p h'
        refine ⟨a, ?_⟩
        unfold cutTo
        split
        · rcases hm with rfl | rfl
          · omega
          · exact c
        · exact b)
    refine ⟨fun q => (hall q).choose, ?_, ?_⟩
    · unfold edit
      rw [h1, hr _ rfl]
      exact loop_set utf8 toFile { properties := props, printAll := if adds = [] then true else false, truncate := m } (by simp [ne]) rfl _
        (fun q => (hall q).choose_spec.1) gs
    · intro q k
      rw [(hall q).choose_spec.2 k, h2 k]
      cases asked adds k <;> rfl
  constructor
  · have := go 0 (.inl rfl) [] (fun s hs => by cases s; simp only at hs; subst hs; rfl)
    have e : cutTo 0 = fun v : Str => v := by funext v; simp [cutTo]
    rw [e, List.append_nil] at this
    exact this
  · intro hn
    have := go n (.inr rfl) [.truncate n] (fun s _ => rfl)
    have e : cutTo n = fun v : Str => v.take n := by funext v; simp [cutTo, hn]
    rwa [e] at this

theorem loop_all (utf8 : Str → Bool) (s : Settings) (ha : s.printAll = true) (gs : List (α × Props)) :
    editLoop utf8 false s gs = ⟨gs.map fun g => .all g.2, .success⟩ := by
  induction gs with
  | nil => rfl
  | cons g gs ih =>
    have : editOne utf8 false s g = .inl (.all g.2) := by simp [editOne, ha]
    simp only [editLoop, this, ih]
    rfl

/-- **C102, printing everything**: without options, and with -p alone, all properties of each transducer are printed. -/
theorem C102_print_all (utf8 : Str → Bool) (gs : List (α × Props)) :
    edit utf8 false [] gs = ⟨gs.map fun g => .all g.2, .success⟩ ∧ edit utf8 false [.print none] gs = ⟨gs.map fun g => .all g.2, .success⟩ :=
  ⟨loop_all utf8 _ rfl gs, loop_all utf8 _ rfl gs⟩

/-- **C102, an argument of -a without `=`**: the tool fails and nothing is written, whatever comes before and after it. -/
theorem C102_no_equals (utf8 : Str → Bool) (toFile : Bool) (before after : List Opt) (arg : Str) (h : '=' ∉ arg) (gs : List (α × Props)) :
    edit utf8 toFile (before ++ .add arg :: after) gs = ⟨[], .failure⟩ := by
  have e : arg.dropWhile (fun c => decide (c ≠ '=')) = [] := by
    have hp : ∀ c ∈ arg, decide (c ≠ '=') = true := fun c hc => by
      have : c ≠ '=' := fun h' => h (h' ▸ hc)
      simpa using this
    have := List.dropWhile_append_of_pos (l₂ := []) hp
    simpa using this
  have : ∀ s, readOpts s (before ++ .add arg :: after) = none := by
    induction before with
    | nil => intro s; simp only [List.nil_append, readOpts, readOpt, e]
    | cons o os ih =>
      intro s
      simp only [List.cons_append, readOpts]
      cases readOpt s o with
      | none => rfl
      | some s' => exact ih s'
  simp [edit, this]

/-- **C102, another character encoding**: the tool fails and nothing is written. -/
theorem C102_encoding (utf8 : Str → Bool) (toFile : Bool) (v : Str) (h : v ≠ "utf-8".toList ∧ v ≠ "UTF-8".toList) (g : α × Props) (gs : List (α × Props)) :
    edit utf8 toFile (addOptions [("character-encoding".toList, v)]) (g :: gs) = ⟨[], .failure⟩ := by
  have hr : readOpts {} (addOptions [("character-encoding".toList, v)]) =
      some { properties := [("character-encoding".toList, v)], printAll := false } := by
    have e := readOpt_add {} "character-encoding".toList v (by decide)
    simp only [addOptions, List.map_cons, List.map_nil, readOpts, e]
    rfl
  have hs : ∀ props, setAll utf8 0 [("character-encoding".toList, v)] props = .inr .failure := by
    intro props
    rw [setAll, if_pos ⟨rfl, fun h' => h'.elim h.1 h.2⟩]
  simp only [edit, hr, editLoop, editOne]
  rw [if_pos (by simp)]
  simp only [hs]

/-- **C102, -p NAME (violated)**: all properties are printed, not only the one asked for. -/
theorem C102_print_violated (utf8 : Str → Bool) (name : Str) (gs : List (α × Props)) :
    edit utf8 false [.print (some name)] gs = ⟨gs.map fun g => .all g.2, .success⟩ := loop_all utf8 _ rfl gs

/-- **C102, -a and -p NAME (violated)**: the property is not added, no transducer is written, and the old value is printed; if the
transducer does not have the property, the behaviour is undefined. -/
theorem C102_add_print_violated (utf8 : Str → Bool) (k v name : Str) (hk : '=' ∉ k) (content : α) (props : Props) :
    (∀ old, mapGet props name = some old →
      edit utf8 false [.add (k ++ '=' :: v), .print (some name)] [(content, props)] = ⟨[.one old], .success⟩) ∧
    (mapGet props name = none →
      edit utf8 false [.add (k ++ '=' :: v), .print (some name)] [(content, props)] = ⟨[], .undefined⟩) := by
  have hr : readOpts {} [.add (k ++ '=' :: v), .print (some name)] =
      some { properties := [(k, v)], printAll := false, printName := some name } := by
    simp only [readOpts, readOpt_add {} k v hk]
    rfl
  constructor
  · intro old h
    simp [edit, hr, editLoop, editOne, h, Tools.Run.after]
  · intro h
    simp [edit, hr, editLoop, editOne, h]

/-- **C102, the order of -a and -p (violated)**: after -a, -p means that all properties are printed and none is added; before -a it means
nothing. -/
theorem C102_order_violated (utf8 : Str → Bool) (k v : Str) (hk : '=' ∉ k) (gs : List (α × Props)) :
    edit utf8 false [.add (k ++ '=' :: v), .print none] gs = ⟨gs.map fun g => .all g.2, .success⟩ ∧
    edit utf8 false [.print none, .add (k ++ '=' :: v)] gs = edit utf8 false [.add (k ++ '=' :: v)] gs := by
  constructor
  · unfold edit
    simp only [readOpts, readOpt_add {} k v hk]
    exact loop_all utf8 _ rfl gs
  · unfold edit
    have e : readOpt {} (.print none) = some {} := rfl
    simp only [readOpts, e]

/-- **C102, -o (violated)**: whenever properties are to be printed into a file, the behaviour is undefined: the file has been closed. -/
theorem C102_output_violated (utf8 : Str → Bool) (name : Option Str) (g : α × Props) (gs : List (α × Props)) :
    edit utf8 true [.print name] (g :: gs) = ⟨[], .undefined⟩ := by
  cases name <;> rfl

/-- **C102, -t (violated)**: the length is in bytes; if it ends inside a character, the program ends with an exception. -/
theorem C102_truncate_violated (utf8 : Str → Bool) (toFile : Bool) (k v : Str) (hk : '=' ∉ k) (hc : k ≠ "character-encoding".toList) (n : Nat)
    (hn : 0 < n) (hu : utf8 (v.take n) = false) (g : α × Props) (gs : List (α × Props)) :
    edit utf8 toFile [.add (k ++ '=' :: v), .truncate n] (g :: gs) = ⟨[], .crash⟩ := by
  have hr : readOpts {} [.add (k ++ '=' :: v), .truncate n] = some { properties := [(k, v)], printAll := false, truncate := n } := by
    simp only [readOpts, readOpt_add {} k v hk]
    rfl
  have hs : ∀ props, setAll utf8 n [(k, v)] props = .inr .crash := by
    intro props
    rw [setAll, if_neg (fun h => hc h.1)]
    simp [hn, hu]
  simp only [edit, hr, editLoop, editOne]
  rw [if_pos (by simp)]
  simp only [hs]

/-! ## Cases that meet the hypotheses -/

/-- A text is refused if it ends after the first byte of a character of two bytes (an example for `check_utf8_correctness`, called in
libhfst/src/HfstTransducer.cc:1558). -/
def sampleUtf8 (s : Str) : Bool := s.getLast? != some (Char.ofNat 0xC3)

/-- `-a name=x -a lang=fi -a name=y`: the last name counts, and the type stays. -/
example : ∃ props', edit sampleUtf8 false (addOptions [("name".toList, "x".toList), ("lang".toList, "fi".toList), ("name".toList, "y".toList)])
      [((), [("type".toList, "SFST".toList), ("name".toList, "old".toList)])] = ⟨[.wrote () props'], .success⟩ ∧
    mapGet props' "name".toList = some "y".toList ∧ mapGet props' "lang".toList = some "fi".toList ∧
    mapGet props' "type".toList = some "SFST".toList := by
  obtain ⟨c, h1, h2⟩ := (C102_add_partial (α := Unit) sampleUtf8 false
    [("name".toList, "x".toList), ("lang".toList, "fi".toList), ("name".toList, "y".toList)] (by simp) 1 (by decide +kernel)
    [((), [("type".toList, "SFST".toList), ("name".toList, "old".toList)])]).1
  refine ⟨_, h1, ?_, ?_, ?_⟩ <;> (rw [h2]; decide +kernel)

/-- `-t 1 -a name=ä` crashes. -/
example : edit sampleUtf8 false [.add ("name".toList ++ '=' :: [Char.ofNat 0xC3, Char.ofNat 0xA4]), .truncate 1] [((), [])] = ⟨[], .crash⟩ :=
  C102_truncate_violated sampleUtf8 false "name".toList _ (by decide) (by decide) 1 (by decide) (by decide +kernel) ((), []) []

/-- `-a name` fails. -/
example : edit sampleUtf8 false ([] ++ [.add "name".toList]) [((), [])] = ⟨[], .failure⟩ :=
  C102_no_equals sampleUtf8 false [] [] "name".toList (by decide) [((), [])]

/-- `-a name=x -p type` prints the type and adds nothing. -/
example : edit sampleUtf8 false [.add ("name".toList ++ '=' :: "x".toList), .print (some "type".toList)]
    [((), [("type".toList, "SFST".toList)])] = ⟨[.one "SFST".toList], .success⟩ :=
  (C102_add_print_violated sampleUtf8 "name".toList "x".toList "type".toList (by decide) () _).1 _ (by decide +kernel)

end Hfst.EditMeta
