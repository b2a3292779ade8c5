import Verif.Props.OlWalkBasic
import Verif.Props.OlLookup

/-!
# Extracting the paths reports the paths
-/
namespace Hfst.Ol
open Hfst.Basic

section
variable {M : Machine} {n : Inputs} {N : Net} {pos : Nat → Nat} {count : Nat}

theorem mem_visitInsert {trail : List Nat} {k : Nat} {t : Trans} {p : Nat × Trans} : ∀ {l : List (Nat × Trans)},
    p ∈ visitInsert M trail k t l ↔ p = (k, t) ∨ p ∈ l
  | [] => by simp [visitInsert]
  | x :: xs => by
    unfold visitInsert
    split
    · simp
    · rw [List.mem_cons, mem_visitInsert, List.mem_cons]
      constructor
      · rintro (h | h | h)
        · exact .inr (.inl h)
        · exact .inl h
        · exact .inr (.inr h)
      · rintro (h | h | h)
        · exact .inr (.inl h)
        · exact .inl h
        · exact .inr (.inr h)

theorem visitSort_ok {trail : List Nat} : ∀ {l : List Nat} {acc : List (Nat × Trans)}, (∀ k ∈ l, (tableGet M.transitions k).isSome) →
    ∃ ps, visitSort M trail l acc = .ok ps ∧ ∀ p, p ∈ ps ↔ p ∈ acc ∨ (p.1 ∈ l ∧ tableGet M.transitions p.1 = some p.2)
  | [], acc, _ => ⟨acc, rfl, fun p => by simp⟩
  | k :: l, acc, h => by
    obtain ⟨t, ht⟩ := Option.isSome_iff_exists.mp (h k (List.mem_cons_self ..))
    obtain ⟨ps, h1, h2⟩ := visitSort_ok (trail := trail) (acc := visitInsert M trail k t acc) fun j hj => h j (List.mem_cons_of_mem _ hj)
    refine ⟨ps, ?_, fun p => ?_⟩
    · unfold visitSort
      rw [ht]
      exact h1
    · rw [h2, mem_visitInsert, List.mem_cons]
      constructor
      · rintro ((rfl | h3) | ⟨h3, h4⟩)
        · exact .inr ⟨.inl rfl, ht⟩
        · exact .inl h3
        · exact .inr ⟨.inr h3, h4⟩
      · rintro (h3 | ⟨h3 | h3, h4⟩)
        · exact .inl (.inr h3)
        · rw [h3, ht] at h4
          injection h4 with h4
          exact .inl (.inl (Prod.ext h3 h4.symm))
        · exact .inr ⟨h3, h4⟩

/-- The flags let the symbols pass. -/
def Extraction.Passes (E : Extraction) (fs : Flags.FdState) (xs : List Nat) : Prop :=
  ∀ fd, E.fd = some fd → fd.passes fs xs = some true

/-- The call is sensible: the flags are those of the transducer, and flags are only left out if they are obeyed. -/
structure Extraction.OK (M : Machine) (E : Extraction) : Prop where
  fd : E.fd = none ∨ E.fd = some M.fd
  filter : E.filter = true → E.fd = some M.fd

/-- There is a value for every feature. -/
def Extraction.Room (E : Extraction) (fs : Flags.FdState) : Prop := ∀ fd, E.fd = some fd → fs.values.length = fd.numFeatures

theorem flags_ok (hS : SymbolsOK M.kinds n N) {E : Extraction} (hE : E.OK M) {fs : Flags.FdState} (hfs : E.Room fs) (x : Nat) :
    (E.flags fs x = .ok none ∧ ∀ xs, ¬ E.Passes fs (x :: xs)) ∨
      ∃ fs', E.flags fs x = .ok (some fs') ∧ E.Room fs' ∧ ∀ xs, E.Passes fs (x :: xs) ↔ E.Passes fs' xs := by
  unfold Extraction.flags Extraction.Passes
  rcases hE.fd with hfd | hfd
  · rw [hfd]
    exact .inr ⟨fs, rfl, hfs, fun xs => ⟨(fun _ fd h => by cases h), fun _ fd h => by cases h⟩⟩
  · rw [hfd]
    dsimp only
    have hroom := hfs _ hfd
    have hall : ∀ (P : Flags.FdTable Nat → Prop), (∀ fd, some M.fd = some fd → P fd) ↔ P M.fd := by
      intro P
      refine ⟨fun h => h _ rfl, fun h fd he => ?_⟩
      injection he with he
      exact he ▸ h
    simp only [hall]
    cases ho : M.fd.getOperation x with
    | none =>
      refine .inr ⟨fs, rfl, hfs, fun xs => ?_⟩
      show (match fs.applySymbol M.fd x with
        | none => none
        | some (true, st') => M.fd.passes st' xs
        | some (false, _) => some false) = some true ↔ _
      unfold Flags.FdState.applySymbol
      rw [ho]
    | some o =>
      obtain ⟨b, st', h1, _, h3⟩ := apply_some (st := fs) (o := o) (by rw [hroom]; exact hS.features x o ho)
      dsimp only
      rw [h1]
      have hp : ∀ xs, M.fd.passes fs (x :: xs) = match (some (b, st') : Option (Bool × Flags.FdState)) with
        | none => none
        | some (true, st') => M.fd.passes st' xs
        | some (false, _) => some false := by
        intro xs
        show (match fs.applySymbol M.fd x with
          | none => none
          | some (true, st') => M.fd.passes st' xs
          | some (false, _) => some false) = _
        unfold Flags.FdState.applySymbol
        rw [ho]
        dsimp only
        rw [h1]
      cases b with
      | false =>
        refine .inl ⟨rfl, fun xs => ?_⟩
        rw [hp]
        simp
      | true =>
        refine .inr ⟨st', rfl, ?_, fun xs => by rw [hp]⟩
        intro fd he
        rw [h3]
        exact hfs fd he

theorem name_ok {E : Extraction} (hE : E.OK M) {x : Nat} (hx : x < M.alphabet.table.length) : E.name M x = .ok (E.shown M x) := by
  unfold Extraction.name Extraction.shown
  rw [List.getElem?_eq_getElem hx]
  dsimp only
  by_cases hf : E.filter = true
  · rw [if_pos hf, hE.filter hf]
    dsimp only
    by_cases ho : (M.fd.getOperation x).isSome = true
    · rw [if_pos ho, if_pos ⟨hf, ho⟩]
    · rw [if_neg ho, if_neg fun h => ho h.2]
      rfl
  · rw [if_neg hf, if_neg fun h => hf h.1]
    rfl

/-- The reports for the paths from `q` after the states `T`. -/
def Reports (M : Machine) (E : Extraction) (N : Net) (T : List Nat) (q : Nat) (w : Int) (spv : List (Bytes × Bytes)) (fs : Flags.FdState)
    (r : TwoLevel × Bool) : Prop :=
  ∃ l q', NPath N q l q' ∧ (spv ≠ [] ∨ l ≠ []) ∧ (E.cycles < 0 ∨ ∀ s, ((T.count s + visits q l s : Nat) : Int) ≤ E.cycles + 1) ∧
    E.Passes fs (l.map (·.input)) ∧
    r = ((w + pathWeight l + (N.final q').getD 0, spv ++ l.map fun a => (E.shown M a.input, E.shown M a.output)), (N.final q').isSome)

/-- The states on the trail have not been visited too often. -/
def TrailOK (E : Extraction) (N : Net) (T : List Nat) : Prop :=
  (∀ s ∈ T, s < N.size) ∧ (E.cycles < 0 ∨ ∀ s, (T.count s : Int) ≤ E.cycles + 1)

theorem reports_step {E : Extraction} {T : List Nat} (hT : TrailOK E N T) {q : Nat} (hc : E.cycles < 0 ∨ (T.count q : Int) ≤ E.cycles)
    {w : Int} {spv : List (Bytes × Bytes)} {fs : Flags.FdState} {r : TwoLevel × Bool} :
    Reports M E N T q w spv fs r ↔ (spv ≠ [] ∧ r = ((w + (N.final q).getD 0, spv), (N.final q).isSome)) ∨
      ∃ a ∈ N.arcs q, ∃ l q', NPath N a.target l q' ∧
        (E.cycles < 0 ∨ ∀ s, (((q :: T).count s + visits a.target l s : Nat) : Int) ≤ E.cycles + 1) ∧ E.Passes fs (a.input :: l.map (·.input)) ∧
        r = ((w + a.weight + pathWeight l + (N.final q').getD 0,
          spv ++ [(E.shown M a.input, E.shown M a.output)] ++ l.map fun a => (E.shown M a.input, E.shown M a.output)), (N.final q').isSome) := by
  have hcount : ∀ (a : NArc) (l : List NArc) (s : Nat), T.count s + visits q (a :: l) s = (q :: T).count s + visits a.target l s := by
    intro a l s
    unfold visits
    rw [List.map_cons, List.count_cons, List.count_cons (l := T)]
    omega
  constructor
  · rintro ⟨l, q', h1, h2, h3, h4, h5⟩
    cases h1 with
    | nil =>
      left
      refine ⟨h2.resolve_right fun h => h rfl, ?_⟩
      rw [h5]
      simp [pathWeight]
    | @cons _ _ a l ha hl =>
      right
      refine ⟨a, ha, l, q', hl, ?_, h4, ?_⟩
      · rcases h3 with h3 | h3
        · exact .inl h3
        · refine .inr fun s => ?_
          rw [← hcount]
          exact h3 s
      · rw [h5]
        simp [pathWeight, Int.add_assoc]
  · rintro (⟨h1, h2⟩ | ⟨a, ha, l, q', h1, h2, h3, h4⟩)
    · refine ⟨[], q, .nil, .inl h1, ?_, ?_, ?_⟩
      · rcases hT.2 with h | h
        · exact .inl h
        · rcases hc with hc | hc
          · exact .inl hc
          · refine .inr fun s => ?_
            unfold visits
            rw [List.map_nil, List.count_singleton]
            split
            · rename_i he
              have he : q = s := by simpa using he
              subst he
              omega
            · have := h s
              omega
      · intro fd _
        rfl
      · rw [h2]
        simp [pathWeight]
    · refine ⟨a :: l, q', .cons ha h1, .inr (by simp), ?_, h3, ?_⟩
      · rcases h2 with h2 | h2
        · exact .inl h2
        · refine .inr fun s => ?_
          rw [hcount]
          exact h2 s
      · rw [h4]
        simp [pathWeight, Int.add_assoc]

/-- The fuel is enough. -/
inductive Enough (E : Extraction) (N : Net) : Nat → List Nat → Nat → Prop
  | mk {m : Nat} {T : List Nat} {q : Nat} :
      ((E.cycles < 0 ∨ (T.count q : Int) ≤ E.cycles) → ∀ a ∈ N.arcs q, Enough E N m (q :: T) a.target) → Enough E N (m + 1) T q

/-- The callback never ends the search. -/
def GoesOn {σ : Type} (cb : Callback σ) : Prop := ∀ c p f, (cb c p f).2 = (true, true)

/-- What the callback makes of the reports. -/
def told {σ : Type} (cb : Callback σ) (c : σ) (rs : List (TwoLevel × Bool)) : σ := rs.foldl (fun c r => (cb c r.1 r.2).1) c

theorem extractArcs_ok {σ : Type} (hR : Represents M n N pos) (hS : SymbolsOK M.kinds n N) {E : Extraction} (hE : E.OK M) {cb : Callback σ} {q : Nat} (hq : q < N.size)
    (call : ExtractCall σ) (R : NArc → Flags.FdState → TwoLevel × Bool → Prop) {w : Int} {spv : List (Bytes × Bytes)} {fs : Flags.FdState} (hfs : E.Room fs)
    (hcall : ∀ a ∈ N.arcs q, ∀ fs', E.Room fs' → ∀ c, ∃ rs,
      call (pos a.target) (w + a.weight) (spv ++ [(E.shown M a.input, E.shown M a.output)]) fs' c = .ok (true, told cb c rs) ∧ ∀ r, r ∈ rs ↔ R a fs' r)
    (hP : Apart N pos) :
    ∀ (ps : List (Nat × Trans)) (c : σ), (∀ p ∈ ps, ∃ a ∈ N.arcs q, IsEntry M pos p.2 a) →
      ∃ rs, extractArcs M E call w spv fs ps c = .ok (true, told cb c rs) ∧
        ∀ r, r ∈ rs ↔ ∃ p ∈ ps, ∃ a ∈ N.arcs q, IsEntry M pos p.2 a ∧ ∃ fs', E.flags fs a.input = .ok (some fs') ∧ R a fs' r
  | [], c, _ => ⟨[], rfl, fun r => by simp⟩
  | p :: ps, c, h => by
    obtain ⟨a, ha, hent⟩ := h p (List.mem_cons_self ..)
    have hun : ∀ b ∈ N.arcs q, IsEntry M pos p.2 b → b = a := by
      intro b hb hb'
      obtain ⟨h4, h5, h6, h7⟩ := hent
      obtain ⟨g4, g5, g6, g7⟩ := hb'
      have := hP _ (hR.closed q hq b hb) _ (hR.closed q hq a ha) (g6.symm.trans h6)
      cases a
      cases b
      simp only at *
      simp only [NArc.mk.injEq]
      exact ⟨g4.symm.trans h4, g5.symm.trans h5, this, g7.symm.trans h7⟩
    have ih := fun c => extractArcs_ok (cb := cb) hR hS hE hq call R hfs hcall hP ps c fun p' hp' => h p' (List.mem_cons_of_mem _ hp')
    unfold extractArcs
    rw [hent.1, hent.2.1, hent.2.2.1]
    rcases flags_ok hS hE hfs a.input with ⟨h1, h2⟩ | ⟨fs', h1, h2, h3⟩
    · rw [h1]
      obtain ⟨rs, e1, e2⟩ := ih c
      refine ⟨rs, e1, fun r => ?_⟩
      rw [e2]
      constructor
      · rintro ⟨p', hp', h3⟩
        exact ⟨p', List.mem_cons_of_mem _ hp', h3⟩
      · rintro ⟨p', hp', b, hb, h3, fs', h4, h5⟩
        rcases List.mem_cons.mp hp' with rfl | hp'
        · rw [hun b hb h3, h1] at h4
          injection h4 with h4
          cases h4
        · exact ⟨p', hp', b, hb, h3, fs', h4, h5⟩
    · rw [h1]
      obtain ⟨k1, k2⟩ := hS.known q hq a ha
      show ∃ rs, ((E.name M a.input).bind fun x => (E.name M a.output).bind fun y => _) = _ ∧ _
      rw [name_ok hE k1, name_ok hE k2]
      have hw : M.transWeight p.2 = a.weight := by
        unfold Machine.transWeight
        exact hent.2.2.2
      show ∃ rs, ((call (pos a.target) (w + M.transWeight p.2) (spv ++ [(E.shown M a.input, E.shown M a.output)]) fs' c).bind fun x => _) = _ ∧ _
      rw [hw]
      obtain ⟨rs1, e1, e2⟩ := hcall a ha fs' h2 c
      rw [e1]
      obtain ⟨rs2, f1, f2⟩ := ih (told cb c rs1)
      refine ⟨rs1 ++ rs2, ?_, fun r => ?_⟩
      · show extractArcs M E call w spv fs ps (told cb c rs1) = _
        rw [f1]
        unfold told
        rw [List.foldl_append]
      · rw [List.mem_append, e2, f2]
        constructor
        · rintro (h4 | ⟨p', hp', h4⟩)
          · exact ⟨p, List.mem_cons_self .., a, ha, hent, fs', h1, h4⟩
          · exact ⟨p', List.mem_cons_of_mem _ hp', h4⟩
        · rintro ⟨p', hp', b, hb, h4, fs'', h5, h6⟩
          rcases List.mem_cons.mp hp' with rfl | hp'
          · have := hun b hb h4
            subst this
            rw [h1] at h5
            injection h5 with h5
            injection h5 with h5
            subst h5
            exact .inl h6
          · exact .inr ⟨p', hp', b, hb, h4, fs'', h5, h6⟩

theorem count_places (hP : Apart N pos) {q : Nat} (hq : q < N.size) : ∀ {T : List Nat}, (∀ s ∈ T, s < N.size) → (T.map pos).count (pos q) = T.count q
  | [], _ => rfl
  | s :: T, h => by
    rw [List.map_cons, List.count_cons, List.count_cons, count_places hP hq fun r hr => h r (List.mem_cons_of_mem _ hr)]
    by_cases he : s = q
    · rw [he]
      simp
    · have : pos s ≠ pos q := fun h' => he (hP s (h s (List.mem_cons_self ..)) q hq h')
      rw [if_neg (by simpa using this), if_neg (by simpa using he)]

theorem extractFrom_ok {σ : Type} (hR : Represents M n N pos) (hS : SymbolsOK M.kinds n N) (hw : Walkable M n N pos count) (hP : Apart N pos) {E : Extraction} (hE : E.OK M)
    (hcyc : E.cycles < 65535) {cb : Callback σ} (hcb : GoesOn cb) {fuel : Nat} {T : List Nat} {q : Nat} (hen : Enough E N fuel T q) :
    q < N.size → TrailOK E N T → ∀ (w : Int) (spv : List (Bytes × Bytes)) (fs : Flags.FdState) (c : σ), E.Room fs →
      ∃ rs, extractFrom M count E cb fuel (T.map pos) (pos q) w spv fs c = .ok (true, told cb c rs) ∧ ∀ r, r ∈ rs ↔ Reports M E N T q w spv fs r := by
  induction hen with
  | @mk m T q _ ih =>
    intro hq hT w spv fs c hfs
    have hcount := count_places hP hq hT.1
    unfold extractFrom
    rw [hcount]
    by_cases hlim : E.cycles < 0 ∨ (T.count q : Int) ≤ E.cycles
    · have hmod : T.count q % 65536 ≤ T.count q := Nat.mod_le _ _
      rw [if_neg (by omega)]
      have hT' : TrailOK E N (q :: T) := by
        refine ⟨?_, ?_⟩
        · intro s hs
          rcases List.mem_cons.mp hs with rfl | hs
          · exact hq
          · exact hT.1 s hs
        · rcases hT.2 with h | h
          · exact .inl h
          · rcases hlim with hlim | hlim
            · exact .inl hlim
            · refine .inr fun s => ?_
              rw [List.count_cons]
              split
              · rename_i he
                have he : q = s := by simpa using he
                subst he
                omega
              · have := h s
                omega
      have hcallback : ∃ rs0, (if spv = [] then Outcome.ok (c, true, true)
          else (placeFinal M (pos q)).bind fun f => .ok (cb c (w + f.getD 0, spv) f.isSome)) = .ok (told cb c rs0, true, true) ∧
          ∀ r, r ∈ rs0 ↔ (spv ≠ [] ∧ r = ((w + (N.final q).getD 0, spv), (N.final q).isSome)) := by
        by_cases hs : spv = []
        · rw [if_pos hs]
          exact ⟨[], rfl, fun r => ⟨(fun h => by cases h), fun h => absurd hs h.1⟩⟩
        · rw [if_neg hs, placeFinal_ok hR hq]
          refine ⟨[((w + (N.final q).getD 0, spv), (N.final q).isSome)], ?_, fun r => ?_⟩
          · show Outcome.ok (cb c (w + (N.final q).getD 0, spv) (N.final q).isSome) = _
            congr 1
            refine Prod.ext rfl ?_
            exact hcb _ _ _
          · rw [List.mem_singleton]
            exact ⟨fun h => ⟨hs, h⟩, fun h => h.2⟩
      obtain ⟨rs0, e1, e2⟩ := hcallback
      rw [e1]
      obtain ⟨l, h1, h2⟩ := transitionsFrom_ok hR hS hw hq
      have htab : ∀ {k : Nat} {a : NArc}, At M pos k a → ∃ t, tableGet M.transitions k = some t ∧ IsEntry M pos t a := by
        rintro k a ⟨t, g1, g2, g3⟩
        refine ⟨t, ?_, g3⟩
        unfold tableGet
        rw [if_neg (by omega)]
        exact g2
      obtain ⟨ps, f1, f2⟩ := visitSort_ok (M := M) (trail := pos q :: T.map pos) (l := l) (acc := []) fun k hk => by
        obtain ⟨a, _, ha⟩ := h2.1 k hk
        obtain ⟨t, ht, _⟩ := htab ha
        rw [ht]
        rfl
      obtain ⟨rs, g1, g2⟩ := extractArcs_ok (cb := cb) hR hS hE hq (extractFrom M count E cb m ((q :: T).map pos))
        (fun a fs' r => Reports M E N (q :: T) a.target (w + a.weight) (spv ++ [(E.shown M a.input, E.shown M a.output)]) fs' r) hfs
        (fun a ha fs' hfs' c => ih hlim a ha (hR.closed q hq a ha) hT' _ _ fs' c hfs') hP ps (told cb c rs0) (by
          intro p hp
          rcases (f2 p).mp hp with h | ⟨h3, h4⟩
          · cases h
          · obtain ⟨a, ha, hat⟩ := h2.1 _ h3
            obtain ⟨t, ht, hent⟩ := htab hat
            rw [ht] at h4
            injection h4 with h4
            exact ⟨a, ha, h4 ▸ hent⟩)
      refine ⟨rs0 ++ rs, ?_, fun r => ?_⟩
      · show ((transitionsFrom M count (pos q)).bind fun l => (visitSort M (pos q :: T.map pos) l []).bind fun ps =>
            extractArcs M E (extractFrom M count E cb m (pos q :: T.map pos)) w spv fs ps (told cb c rs0)) = _
        rw [h1]
        show ((visitSort M (pos q :: T.map pos) l []).bind fun ps => _) = _
        rw [f1]
        show extractArcs M E (extractFrom M count E cb m ((q :: T).map pos)) w spv fs ps (told cb c rs0) = _
        rw [g1]
        unfold told
        rw [List.foldl_append]
      · rw [reports_step hT hlim, List.mem_append, e2, g2]
        refine or_congr Iff.rfl ?_
        constructor
        · rintro ⟨p, hp, a, ha, hent, fs', h3, l', q', h4, h5, h6, h7, h8⟩
          rcases flags_ok hS hE hfs a.input with ⟨k1, _⟩ | ⟨fs'', k1, _, k3⟩
          · rw [h3] at k1
            injection k1 with k1
            cases k1
          · rw [h3] at k1
            injection k1 with k1
            injection k1 with k1
            subst k1
            exact ⟨a, ha, l', q', h4, h6, (k3 _).mpr h7, h8⟩
        · rintro ⟨a, ha, l', q', h4, h5, h6, h7⟩
          obtain ⟨k, hk, hat⟩ := h2.2 a ha
          obtain ⟨t, ht, hent⟩ := htab hat
          rcases flags_ok hS hE hfs a.input with ⟨_, k2⟩ | ⟨fs', k1, _, k3⟩
          · exact absurd h6 (k2 _)
          · exact ⟨(k, t), (f2 _).mpr (.inr ⟨hk, ht⟩), a, ha, hent, fs', k1, l', q', h4, .inl (by simp), h5, (k3 _).mp h6, h7⟩
    · have h1 : 0 ≤ E.cycles := by omega
      have h2 : E.cycles < T.count q := by omega
      have h3 : (T.count q : Int) ≤ E.cycles + 1 := by
        rcases hT.2 with h | h
        · omega
        · exact h q
      have hmod : T.count q % 65536 = T.count q := Nat.mod_eq_of_lt (by omega)
      rw [hmod, if_pos ⟨h1, h2⟩]
      refine ⟨[], rfl, fun r => ⟨(fun h => by cases h), ?_⟩⟩
      rintro ⟨l, q', _, _, h5, _⟩
      rcases h5 with h5 | h5
      · omega
      · have := h5 q
        have hv : 1 ≤ visits q l q := by
          unfold visits
          rw [List.count_cons]
          simp
        omega

/-! ## Enough fuel -/

theorem sum_less {f g : Nat → Nat} {q : Nat} : ∀ {l : List Nat}, (∀ s ∈ l, f s ≤ g s) → q ∈ l → f q < g q → (l.map f).sum < (l.map g).sum
  | [], _, h, _ => by cases h
  | s :: l, h, hq, hlt => by
    have hle : ∀ {l : List Nat}, (∀ s ∈ l, f s ≤ g s) → (l.map f).sum ≤ (l.map g).sum := by
      intro l
      induction l with
      | nil => intro _; exact Nat.le_refl _
      | cons a l ih =>
        intro h
        rw [List.map_cons, List.map_cons, List.sum_cons, List.sum_cons]
        exact Nat.add_le_add (h a (List.mem_cons_self ..)) (ih fun s hs => h s (List.mem_cons_of_mem _ hs))
    rw [List.map_cons, List.map_cons, List.sum_cons, List.sum_cons]
    have h1 := h s (List.mem_cons_self ..)
    have h2 := hle fun r hr => h r (List.mem_cons_of_mem _ hr)
    rcases List.mem_cons.mp hq with rfl | hq
    · omega
    · have := sum_less (fun r hr => h r (List.mem_cons_of_mem _ hr)) hq hlt
      omega

/-- How many visits are left. -/
def budget (N : Net) (c : Nat) (T : List Nat) : Nat := ((List.range N.size).map fun s => c - T.count s).sum

theorem enough_cycles (hcl : ∀ q < N.size, ∀ a ∈ N.arcs q, a.target < N.size) {E : Extraction} (h0 : 0 ≤ E.cycles) :
    ∀ (m : Nat) (T : List Nat) (q : Nat), q < N.size → budget N (E.cycles.toNat + 1) T < m → Enough E N m T q
  | 0, _, _, _, h => by omega
  | m + 1, T, q, hq, h => by
    refine .mk fun hc a ha => enough_cycles hcl h0 m (q :: T) a.target (hcl q hq a ha) ?_
    have hc : (T.count q : Int) ≤ E.cycles := by omega
    have : budget N (E.cycles.toNat + 1) (q :: T) < budget N (E.cycles.toNat + 1) T := by
      refine sum_less (q := q) ?_ (List.mem_range.mpr hq) ?_
      · intro s _
        rw [List.count_cons]
        omega
      · rw [List.count_cons]
        simp only [beq_self_eq_true, if_true]
        omega
    omega

theorem enough_rank (hcl : ∀ q < N.size, ∀ a ∈ N.arcs q, a.target < N.size) {E : Extraction} {rank : Nat → Nat} (hr : ∀ q < N.size, ∀ a ∈ N.arcs q, rank a.target < rank q) :
    ∀ (m : Nat) (T : List Nat) (q : Nat), q < N.size → rank q < m → Enough E N m T q
  | 0, _, _, _, h => by omega
  | m + 1, T, q, hq, h => by
    refine .mk fun _ a ha => enough_rank hcl hr m (q :: T) a.target (hcl q hq a ha) ?_
    have := hr q hq a ha
    omega

/-- The search ends and reports just the allowed paths. -/
theorem extractPaths_ok {σ : Type} (hR : Represents M n N pos) (hS : SymbolsOK M.kinds n N) (hw : Walkable M n N pos count) (hP : Apart N pos) {E : Extraction} (hE : E.OK M)
    (hcyc : E.cycles < 65535) {cb : Callback σ} (hcb : GoesOn cb) {fuel : Nat} (hen : Enough E N fuel [] 0) (c : σ) :
    ∃ rs, extractPaths M count E cb fuel c = .ok (told cb c rs) ∧
      ∀ r, r ∈ rs ↔ ∃ l q, NPath N 0 l q ∧ l ≠ [] ∧ E.Allows 0 l ∧ r = E.report M N l q := by
  unfold extractPaths
  generalize hst : Flags.FdState.init _ = st
  have hroom : E.Room st := by
    intro fd hfd
    rw [← hst, hfd]
    simp [Flags.FdState.init]
  obtain ⟨rs, h1, h2⟩ := extractFrom_ok hR hS hw hP hE hcyc hcb hen hR.nonempty ⟨by simp, by simp; omega⟩ 0 [] st c hroom
  rw [List.map_nil, hR.start] at h1
  rw [h1]
  refine ⟨rs, rfl, fun r => ?_⟩
  rw [h2]
  unfold Reports Extraction.Allows Extraction.report Extraction.Passes
  have hinit : ∀ fd, E.fd = some fd → ∀ xs, (fd.passes st xs = some true ↔ fd.passes (Flags.FdState.init fd.numFeatures) xs = some true) := by
    intro fd hfd xs
    rw [← hst, hfd]
  constructor
  · rintro ⟨l, q, g1, g2, g3, g4, g5⟩
    refine ⟨l, q, g1, g2.resolve_left fun h => h rfl, ⟨?_, ?_⟩, ?_⟩
    · simpa using g3
    · intro fd hfd
      exact (hinit fd hfd _).mp (g4 fd hfd)
    · rw [g5]
      simp
  · rintro ⟨l, q, g1, g2, ⟨g3, g4⟩, g5⟩
    refine ⟨l, q, g1, .inr g2, by simpa using g3, ?_, ?_⟩
    · intro fd hfd
      exact (hinit fd hfd _).mpr (g4 fd hfd)
    · rw [g5]
      simp

end

end Hfst.Ol
