import Verif.Spec.Extract
import Verif.Props.OlExtract
import Verif.Props.OlConvertLookup
import Mathlib.Data.List.Basic
import Mathlib.Data.List.Nodup
import Mathlib.Data.List.Perm.Subperm

/-!
# C88: what the extraction of paths gives
-/
namespace Hfst.Extract
open Hfst.Basic (Outcome Sym)
open Hfst.Conv (OArc OState Ofst SymTable)
open Hfst.Ol (FlagTableOK)

/-! ## Order of the arcs -/

theorem mem_insertArc {V : View} {all : List Nat} {a x : OArc} : ∀ {l : List OArc}, x ∈ V.insertArc all a l ↔ x = a ∨ x ∈ l
  | [] => by simp [View.insertArc]
  | b :: l => by
    unfold View.insertArc
    split
    · simp
    · rw [List.mem_cons, mem_insertArc, List.mem_cons]
      constructor
      · rintro (h | h | h)
        · exact .inr (.inl h)
        · exact .inl h
        · exact .inr (.inr h)
      · rintro (h | h | h)
        · exact .inr (.inl h)
        · exact .inl h
        · exact .inr (.inr h)

theorem mem_sortArcs {V : View} {all : List Nat} {x : OArc} {l : List OArc} : x ∈ V.sortArcs all l ↔ x ∈ l := by
  have key : ∀ (l m : List OArc), x ∈ l.foldl (fun l a => V.insertArc all a l) m ↔ x ∈ m ∨ x ∈ l := by
    intro l
    induction l with
    | nil => intro m; simp
    | cons a l ih =>
      intro m
      rw [List.foldl_cons, ih, mem_insertArc, List.mem_cons]
      constructor
      · rintro ((h | h) | h)
        · exact .inr (.inl h)
        · exact .inl h
        · exact .inr (.inr h)
      · rintro (h | h | h)
        · exact .inl (.inr h)
        · exact .inl (.inl h)
        · exact .inr h
  unfold View.sortArcs
  rw [key]
  simp

/-! ## Flags -/

theorem step_flags {E : Wanted} (hE : ∀ fd, E.fd = some fd → FlagTableOK fd) {fs : Flags.FdState} (hfs : E.Room fs) (x : Nat) :
    (E.flags fs x = .ok none ∧ ∀ xs, ¬ E.Passes fs (x :: xs)) ∨
      ∃ fs', E.flags fs x = .ok (some fs') ∧ E.Room fs' ∧ ∀ xs, E.Passes fs (x :: xs) ↔ E.Passes fs' xs := by
  unfold Hfst.Ol.Extraction.flags Hfst.Ol.Extraction.Passes
  cases hfd : E.fd with
  | none => exact .inr ⟨fs, rfl, hfs, fun xs => ⟨(fun _ fd h => by cases h), fun _ fd h => by cases h⟩⟩
  | some t =>
    dsimp only
    have hroom := hfs _ hfd
    have hall : ∀ (P : Flags.FdTable Nat → Prop), (∀ fd, some t = some fd → P fd) ↔ P t := by
      intro P
      refine ⟨fun h => h _ rfl, fun h fd he => ?_⟩
      injection he with he
      exact he ▸ h
    simp only [hall]
    cases ho : t.getOperation x with
    | none =>
      refine .inr ⟨fs, rfl, hfs, fun xs => ?_⟩
      show (match fs.applySymbol t x with
        | none => none
        | some (true, st') => t.passes st' xs
        | some (false, _) => some false) = some true ↔ _
      unfold Flags.FdState.applySymbol
      rw [ho]
    | some o =>
      obtain ⟨b, st', h1, _, h3⟩ := Hfst.Ol.apply_some (st := fs) (o := o) (by rw [hroom]; exact (hE t hfd).operations x o ho)
      dsimp only
      rw [h1]
      have hp : ∀ xs, t.passes fs (x :: xs) = match (some (b, st') : Option (Bool × Flags.FdState)) with
        | none => none
        | some (true, st') => t.passes st' xs
        | some (false, _) => some false := by
        intro xs
        show (match fs.applySymbol t x with
          | none => none
          | some (true, st') => t.passes st' xs
          | some (false, _) => some false) = _
        unfold Flags.FdState.applySymbol
        rw [ho]
        dsimp only
        rw [h1]
      cases b with
      | false =>
        refine .inl ⟨rfl, fun xs => ?_⟩
        rw [hp]
        simp
      | true =>
        refine .inr ⟨st', rfl, ?_, fun xs => by rw [hp]⟩
        intro fd he
        rw [h3]
        exact hfs fd he

/-! ## The search -/

/-- The call is sensible: the flags are those of a table, and they are left out only if they are obeyed. -/
structure Sensible (E : Wanted) : Prop where
  fd : ∀ fd, E.fd = some fd → FlagTableOK fd
  filter : E.filter = true → ∃ fd, E.fd = some fd

/-- How a label is shown, by the table of flags. -/
def show1 (V : View) (E : Wanted) (x : Nat) : Sym :=
  if E.filter = true ∧ (∃ fd, E.fd = some fd ∧ (fd.getOperation x).isSome) then [] else V.name x

theorem shownName_ok {V : View} {E : Wanted} (hE : Sensible E) (x : Nat) : V.shownName E x = .ok (show1 V E x) := by
  unfold View.shownName show1
  by_cases hf : E.filter = true
  · obtain ⟨fd, hfd⟩ := hE.filter hf
    rw [if_pos hf, hfd]
    dsimp only
    by_cases h : (fd.getOperation x).isSome = true
    · rw [if_pos h, if_pos ⟨hf, fd, rfl, h⟩]
    · rw [if_neg h, if_neg]
      rintro ⟨_, fd', h1, h2⟩
      injection h1 with h1
      exact h (h1 ▸ h2)
  · rw [if_neg hf, if_neg fun h => hf h.1]

/-- The states of a path and of the path before it are not visited too often. -/
def Fits (E : Wanted) (trail : List Nat) (s : Nat) (l : List OArc) : Prop :=
  E.cycles < 0 ∨ ∀ r : Nat, (((s :: l.map (·.next)).count r + trail.count r : Nat) : Int) ≤ E.cycles + 1

/-- `p` is a path that goes on from `s`. -/
def Below (V : View) (E : Wanted) (trail : List Nat) (s : Nat) (w : Int) (spv : List (Sym × Sym)) (fs : Flags.FdState) (p : Found) : Prop :=
  ∃ l r d f, (spv = [] → l ≠ []) ∧ V.Path s l r ∧ V.node r = some d ∧ d.final = some f ∧ Fits E trail s l ∧ E.Passes fs (l.map (·.ilabel)) ∧
    p = (w + (l.map (·.weight)).sum + f, spv ++ l.map fun a => (show1 V E a.ilabel, show1 V E a.olabel))

/-- The path so far visits no state too often, and the counts are right. -/
def TrailFits (V : View) (E : Wanted) (trail : List Nat) : Prop :=
  E.cycles < 0 ∨ ((∀ r : Nat, (trail.count r : Int) ≤ E.cycles + 1) ∧ E.cycles + 1 < V.modulus)

/-- There is place for more. -/
def Place (maxNum : Int) (c : List Found) : Prop := maxNum < 1 ∨ (c.length : Int) < maxNum

/-- What a part of the search should do, where `R` are the paths of that part. -/
structure Collected (maxNum : Int) (R : Found → Prop) (c : List Found) (b : Bool) (c' : List Found) : Prop where
  keeps : c <:+ c'
  sound : ∀ p ∈ c', p ∈ c ∨ R p
  complete : b = true → ∀ p, R p → p ∈ c'
  stops : b = false → 1 ≤ maxNum ∧ maxNum ≤ c'.length
  place : b = true → Place maxNum c → Place maxNum c'
  limit : Place maxNum c → 1 ≤ maxNum → (c'.length : Int) ≤ maxNum
  nodup : c.Nodup → c'.Nodup

theorem Collected.rfl' {maxNum : Int} {R : Found → Prop} {c : List Found} (h : ∀ p, ¬ R p) : Collected maxNum R c true c where
  keeps := List.suffix_refl _
  sound := fun p hp => .inl hp
  complete := fun _ p hp => absurd hp (h p)
  stops := fun h => by cases h
  place := fun _ h => h
  limit := fun h h1 => by
    rcases h with h | h <;> omega
  nodup := fun h => h

theorem Collected.trans {maxNum : Int} {R R' : Found → Prop} {c c' c'' : List Found} {b : Bool} (h : Collected maxNum R c true c')
    (h' : Collected maxNum R' c' b c'') : Collected maxNum (fun p => R p ∨ R' p) c b c'' where
  keeps := h.keeps.trans h'.keeps
  sound := fun p hp => by
    rcases h'.sound p hp with h1 | h1
    · rcases h.sound p h1 with h2 | h2
      · exact .inl h2
      · exact .inr (.inl h2)
    · exact .inr (.inr h1)
  complete := fun hb p hp => by
    rcases hp with hp | hp
    · exact h'.keeps.subset (h.complete rfl p hp)
    · exact h'.complete hb p hp
  stops := h'.stops
  place := fun hb hc => h'.place hb (h.place rfl hc)
  limit := fun hc h1 => h'.limit (h.place rfl hc) h1
  nodup := fun hc => h'.nodup (h.nodup hc)

theorem Collected.stop {maxNum : Int} {R R' : Found → Prop} {c c' : List Found} (h : Collected maxNum R c false c')
    (hR : ∀ p, R p → R' p) : Collected maxNum R' c false c' where
  keeps := h.keeps
  sound := fun p hp => (h.sound p hp).imp id (hR p)
  complete := fun hb => by cases hb
  stops := h.stops
  place := fun hb => by cases hb
  limit := h.limit
  nodup := h.nodup

theorem Collected.congr {maxNum : Int} {R R' : Found → Prop} {c c' : List Found} {b : Bool} (h : Collected maxNum R c b c')
    (hR : ∀ p, R p ↔ R' p) : Collected maxNum R' c b c' where
  keeps := h.keeps
  sound := fun p hp => (h.sound p hp).imp id (hR p).mp
  complete := fun hb p hp => h.complete hb p ((hR p).mpr hp)
  stops := h.stops
  place := h.place
  limit := h.limit
  nodup := h.nodup

/-- One report. -/
theorem collect_ok (maxNum : Int) (c : List Found) (p : Found) (final : Bool) :
    Collected maxNum (fun x => final = true ∧ x = p) c (collect maxNum c p final).2.1 (collect maxNum c p final).1 ∧
      (collect maxNum c p final).2.2 = true := by
  have hkeep : c <:+ (collect maxNum c p final).1 := by
    unfold collect
    dsimp only
    split
    · unfold Hfst.Basic.setInsert
      split
      · exact List.suffix_refl _
      · exact List.suffix_cons _ _
    · exact List.suffix_refl _
  have hlen : (collect maxNum c p final).1.length ≤ c.length + 1 := by
    unfold collect
    dsimp only
    split
    · unfold Hfst.Basic.setInsert
      split <;> simp
    · simp
  have hb : (collect maxNum c p final).2.1 = true ↔ Place maxNum (collect maxNum c p final).1 := by
    unfold collect
    simp only [decide_eq_true_eq]
    rfl
  refine ⟨⟨hkeep, ?_, ?_, ?_, ?_, ?_, ?_⟩, rfl⟩
  · intro x hx
    unfold collect at hx
    dsimp only at hx
    split at hx
    · rename_i hf
      unfold Hfst.Basic.setInsert at hx
      split at hx
      · exact .inl hx
      · rcases List.mem_cons.mp hx with h | h
        · exact .inr ⟨hf, h⟩
        · exact .inl h
    · exact .inl hx
  · rintro _ x ⟨hf, rfl⟩
    unfold collect
    dsimp only
    rw [if_pos hf]
    unfold Hfst.Basic.setInsert
    split
    · assumption
    · exact List.mem_cons_self ..
  · intro h
    have : ¬ Place maxNum (collect maxNum c p final).1 := fun h' => by rw [hb.mpr h'] at h; cases h
    unfold Place at this
    omega
  · intro h _
    exact hb.mp h
  · intro h h1
    unfold Place at h
    omega
  · intro h
    unfold collect
    dsimp only
    split
    · unfold Hfst.Basic.setInsert
      split
      · exact h
      · rename_i hx
        exact List.nodup_cons.mpr ⟨hx, h⟩
    · exact h

/-- The paths that go on with an arc. -/
def ByArc (V : View) (E : Wanted) (trail : List Nat) (w : Int) (spv : List (Sym × Sym)) (fs : Flags.FdState) (a : OArc) (p : Found) : Prop :=
  ∃ fs', E.flags fs a.ilabel = .ok (some fs') ∧ Below V E trail a.next (w + a.weight) (spv ++ [(show1 V E a.ilabel, show1 V E a.olabel)]) fs' p

theorem arcsLoop_ok {V : View} {E : Wanted} (hE : Sensible E) {maxNum : Int} {call : Call (List Found)} {trail : List Nat} {w : Int} {spv : List (Sym × Sym)}
    {fs : Flags.FdState} (hfs : E.Room fs)
    (hcall : ∀ s w spv fs all c b all' c', E.Room fs → call s w spv fs all c = .ok (b, all', c') → spv ≠ [] →
      Collected maxNum (Below V E trail s w spv fs) c b c') :
    ∀ (l : List OArc) (all : List Nat) (c : List Found) {b : Bool} {all' : List Nat} {c' : List Found},
      V.arcsLoop E call w spv fs l all c = .ok (b, all', c') → Collected maxNum (fun p => ∃ a ∈ l, ByArc V E trail w spv fs a p) c b c'
  | [], all, c, b, all', c', h => by
    unfold View.arcsLoop at h
    injection h with h
    injection h with h1 h
    injection h with h2 h3
    subst h1 h2 h3
    exact .rfl' fun p ⟨a, ha, _⟩ => by cases ha
  | a :: l, all, c, b, all', c', h => by
    unfold View.arcsLoop at h
    rcases step_flags hE.fd hfs a.ilabel with ⟨hf, _⟩ | ⟨fs', hf, hroom, _⟩
    · rw [hf] at h
      refine (arcsLoop_ok hE hfs hcall l all c h).congr fun p => ⟨?_, ?_⟩
      · rintro ⟨x, hx, h1⟩
        exact ⟨x, List.mem_cons_of_mem _ hx, h1⟩
      · rintro ⟨x, hx, h1⟩
        rcases List.mem_cons.mp hx with rfl | hx
        · obtain ⟨fs', h2, _⟩ := h1
          rw [hf] at h2
          cases h2
        · exact ⟨x, hx, h1⟩
    · rw [hf, shownName_ok hE, shownName_ok hE] at h
      simp only [Outcome.bind] at h
      cases hc : call a.next (w + a.weight) (spv ++ [(show1 V E a.ilabel, show1 V E a.olabel)]) fs' all c with
      | throws => rw [hc] at h; cases h
      | undefined => rw [hc] at h; cases h
      | ok r =>
        obtain ⟨b1, all1, c1⟩ := r
        rw [hc] at h
        simp only at h
        have h1 := hcall _ _ _ _ _ _ _ _ _ hroom hc (by simp)
        cases b1 with
        | false =>
          simp only [Bool.false_eq_true, if_false] at h
          injection h with h
          injection h with e1 h
          injection h with e2 e3
          subst e1 e3
          exact h1.stop fun p hp => ⟨a, List.mem_cons_self .., fs', hf, hp⟩
        | true =>
          simp only [if_true] at h
          refine (h1.trans (arcsLoop_ok hE hfs hcall l _ c1 h)).congr fun p => ⟨?_, ?_⟩
          · rintro (h2 | ⟨x, hx, h2⟩)
            · exact ⟨a, List.mem_cons_self .., fs', hf, h2⟩
            · exact ⟨x, List.mem_cons_of_mem _ hx, h2⟩
          · rintro ⟨x, hx, h2⟩
            rcases List.mem_cons.mp hx with rfl | hx
            · obtain ⟨fs'', h3, h4⟩ := h2
              rw [hf] at h3
              injection h3 with h3
              injection h3 with h3
              subst h3
              exact .inl h4
            · exact .inr ⟨x, hx, h2⟩

theorem fits_cons {E : Wanted} {trail : List Nat} {s : Nat} {a : OArc} {l : List OArc} (h : Fits E trail s (a :: l)) : Fits E (s :: trail) a.next l := by
  rcases h with h | h
  · exact .inl h
  · refine .inr fun r => ?_
    have := h r
    rw [List.map_cons, List.count_cons] at this
    rw [List.count_cons (l := trail)]
    omega

theorem fits_back {E : Wanted} {trail : List Nat} {s : Nat} {a : OArc} {l : List OArc} (h : Fits E (s :: trail) a.next l) : Fits E trail s (a :: l) := by
  rcases h with h | h
  · exact .inl h
  · refine .inr fun r => ?_
    have := h r
    rw [List.count_cons (l := trail)] at this
    rw [List.map_cons, List.count_cons]
    omega

/-- A call that is not refused at once. -/
theorem entered {V : View} {E : Wanted} {trail : List Nat} {s : Nat} (ht : TrailFits V E trail) :
    (¬ (0 ≤ E.cycles ∧ E.cycles < (trail.count s % V.modulus : Nat)) → TrailFits V E (s :: trail)) ∧
      (0 ≤ E.cycles ∧ E.cycles < (trail.count s % V.modulus : Nat) → ∀ l, ¬ Fits E trail s l) := by
  rcases ht with ht | ⟨h1, h2⟩
  · exact ⟨fun _ => .inl ht, fun h => by omega⟩
  · constructor
    · intro h
      by_cases h0 : E.cycles < 0
      · exact .inl h0
      · have hm : trail.count s % V.modulus = trail.count s := Nat.mod_eq_of_lt (by have := h1 s; omega)
        rw [hm] at h
        refine .inr ⟨fun r => ?_, h2⟩
        rw [List.count_cons]
        by_cases hr : s = r
        · subst hr
          simp only [beq_self_eq_true, if_true]
          omega
        · have := h1 r
          have hb : (s == r) = false := by simpa using hr
          rw [hb]
          simp only [Bool.false_eq_true, if_false]
          omega
    · rintro ⟨h3, h4⟩ l hl
      have hm : trail.count s % V.modulus = trail.count s := Nat.mod_eq_of_lt (by have := h1 s; omega)
      rw [hm] at h4
      rcases hl with hl | hl
      · omega
      · have := hl s
        rw [List.count_cons] at this
        simp only [beq_self_eq_true, if_true] at this
        omega

theorem fits_nil {V : View} {E : Wanted} {trail : List Nat} {s : Nat} (ht : TrailFits V E (s :: trail)) : Fits E trail s [] := by
  rcases ht with ht | ⟨h1, _⟩
  · exact .inl ht
  · refine .inr fun r => ?_
    have := h1 r
    rw [List.count_cons] at this
    rw [List.map_nil, List.count_cons, List.count_nil]
    omega

/-- The paths below a state: the path so far, if it is accepted, and those of its arcs. -/
theorem below_iff {V : View} {E : Wanted} (hE : Sensible E) {trail : List Nat} {s : Nat} {w : Int} {spv : List (Sym × Sym)} {fs : Flags.FdState}
    (hfs : E.Room fs) {d : OState} (hd : V.node s = some d) (ht : TrailFits V E (s :: trail)) (p : Found) :
    Below V E trail s w spv fs p ↔
      ((spv ≠ [] ∧ d.final.isSome = true) ∧ p = (w + d.final.getD 0, spv)) ∨ ∃ a ∈ d.arcs, ByArc V E (s :: trail) w spv fs a p := by
  constructor
  · rintro ⟨l, r, d', f, h1, h2, h3, h4, h5, h6, rfl⟩
    cases h2 with
    | nil =>
      rw [hd] at h3
      injection h3 with h3
      subst h3
      refine .inl ⟨⟨fun h => h1 h rfl, by rw [h4]; rfl⟩, ?_⟩
      rw [h4]
      simp
    | @cons _ _ d'' a l h7 h8 h9 =>
      rw [hd] at h7
      injection h7 with h7
      subst h7
      refine .inr ⟨a, h8, ?_⟩
      rcases step_flags hE.fd hfs a.ilabel with ⟨_, hf⟩ | ⟨fs', hf, _, hp⟩
      · exact absurd h6 (hf _)
      · refine ⟨fs', hf, l, r, d', f, (fun h => by simp at h), h9, h3, h4, fits_cons h5, (hp _).mp h6, ?_⟩
        refine Prod.ext ?_ (by simp)
        simp only [List.map_cons, List.sum_cons]
        omega
  · rintro (⟨⟨h1, h2⟩, rfl⟩ | ⟨a, ha, fs', hf, l, r, d', f, _, h2, h3, h4, h5, h6, rfl⟩)
    · obtain ⟨f, hf⟩ := Option.isSome_iff_exists.mp h2
      refine ⟨[], s, d, f, fun h => absurd h h1, .nil, hd, hf, fits_nil ht, (fun fd _ => rfl), ?_⟩
      rw [hf]
      simp
    · rcases step_flags hE.fd hfs a.ilabel with ⟨hn, _⟩ | ⟨fs'', hn, _, hp⟩
      · rw [hn] at hf
        cases hf
      · rw [hn] at hf
        injection hf with hf
        injection hf with hf
        subst hf
        refine ⟨a :: l, r, d', f, (fun _ h => by cases h), .cons hd ha h2, h3, h4, fits_back h5, (hp _).mpr h6, ?_⟩
        refine Prod.ext ?_ (by simp)
        simp only [List.map_cons, List.sum_cons]
        omega

theorem search_ok {V : View} {E : Wanted} (hE : Sensible E) (maxNum : Int) :
    ∀ (n : Nat) (trail : List Nat) (s : Nat) (w : Int) (spv : List (Sym × Sym)) (fs : Flags.FdState) (all : List Nat) (c : List Found) (b : Bool)
      (all' : List Nat) (c' : List Found), TrailFits V E trail → E.Room fs → V.search E (collect maxNum) n trail s w spv fs all c = .ok (b, all', c') →
        Collected maxNum (Below V E trail s w spv fs) c b c'
  | 0, _, _, _, _, _, _, _, _, _, _, _, _, h => by cases h
  | n + 1, trail, s, w, spv, fs, all, c, b, all', c', ht, hfs, h => by
    unfold View.search at h
    by_cases hstop : 0 ≤ E.cycles ∧ E.cycles < (trail.count s % V.modulus : Nat)
    · rw [if_pos hstop] at h
      injection h with h
      injection h with h1 h
      injection h with h2 h3
      subst h1 h2 h3
      exact .rfl' fun p ⟨l, _, _, _, _, _, _, _, hl, _⟩ => (entered ht).2 hstop l hl
    · rw [if_neg hstop] at h
      have ht' := (entered ht).1 hstop
      cases hd : V.node s with
      | none => rw [hd] at h; cases h
      | some d =>
        rw [hd] at h
        dsimp only at h
        have hloop : ∀ {c1 : List Found}, V.arcsLoop E (V.search E (collect maxNum) n (s :: trail)) w spv fs (V.sortArcs (s :: all) d.arcs) (s :: all) c1 =
            .ok (b, all', c') → Collected maxNum (fun p => ∃ a ∈ d.arcs, ByArc V E (s :: trail) w spv fs a p) c1 b c' := by
          intro c1 hl
          refine (arcsLoop_ok hE hfs ?_ _ _ _ hl).congr fun p => ⟨fun ⟨a, h1, h2⟩ => ⟨a, mem_sortArcs.mp h1, h2⟩, fun ⟨a, h1, h2⟩ => ⟨a, mem_sortArcs.mpr h1, h2⟩⟩
          intro s' w' spv' fs' a' c2 b' a'' c'' hr hcall _
          exact search_ok hE maxNum n (s :: trail) s' w' spv' fs' a' c2 b' a'' c'' ht' hr hcall
        by_cases hs : spv = []
        · rw [if_pos hs] at h
          simp only [Bool.not_true, Bool.or_self, Bool.false_eq_true, if_false] at h
          refine (hloop h).congr fun p => ?_
          rw [below_iff hE hfs hd ht']
          refine ⟨.inr, ?_⟩
          rintro (⟨⟨h1, _⟩, _⟩ | h1)
          · exact absurd hs h1
          · exact h1
        · rw [if_neg hs] at h
          obtain ⟨h1, h2⟩ := collect_ok maxNum c (w + d.final.getD 0, spv) d.final.isSome
          generalize hcb : collect maxNum c (w + d.final.getD 0, spv) d.final.isSome = r at *
          obtain ⟨c1, goOn, further⟩ := r
          dsimp only at h h1 h2
          subst h2
          cases goOn with
          | false =>
            simp only [Bool.not_false, Bool.true_or, if_true] at h
            injection h with h
            injection h with e1 h
            injection h with e2 e3
            subst e1 e3
            refine h1.stop fun p hp => (below_iff hE hfs hd ht' p).mpr (.inl ⟨⟨hs, hp.1⟩, hp.2⟩)
          | true =>
            simp only [Bool.not_true, Bool.or_self, Bool.false_eq_true, if_false] at h
            refine (h1.trans (hloop h)).congr fun p => ?_
            rw [below_iff hE hfs hd ht']
            constructor
            · rintro (⟨h3, h4⟩ | h3)
              · exact .inl ⟨⟨hs, h3⟩, h4⟩
              · exact .inr h3
            · rintro (⟨⟨_, h3⟩, h4⟩ | h3)
              · exact .inl ⟨h3, h4⟩
              · exact .inr h3

/-! ## Flags by their symbols -/

theorem symbol_of_mem {V : View} (h : (V.symbols.map (·.1)).Nodup) {e : Nat × Sym} (he : e ∈ V.symbols) : V.symbol e.1 = e.2 := by
  unfold View.symbol Hfst.Basic.mapGet
  generalize V.symbols = l at h he
  induction l with
  | nil => cases he
  | cons x l ih =>
    rw [List.map_cons, List.nodup_cons] at h
    rcases List.mem_cons.mp he with rfl | he
    · simp
    · have : x.1 ≠ e.1 := fun hx => h.1 (hx ▸ List.mem_map_of_mem he)
      rw [List.find?_cons_of_neg (by simpa using this)]
      exact ih h.2 he

theorem symbol_mem {V : View} {x : Nat} (h : Flags.isDiacritic (V.symbol x) = true) : (x, V.symbol x) ∈ V.symbols := by
  unfold View.symbol at h ⊢
  cases hm : Hfst.Basic.mapGet V.symbols x with
  | none =>
    rw [hm] at h
    exact absurd h (by decide)
  | some s =>
    unfold Hfst.Basic.mapGet at hm
    rw [Option.map_eq_some_iff] at hm
    obtain ⟨e, h1, h2⟩ := hm
    have h3 := List.find?_some h1
    simp only [decide_eq_true_eq] at h3
    have h4 := List.mem_of_find?_eq_some h1
    rw [← h3, ← h2]
    exact h4

theorem flag_defs {V : View} (h : V.FlagsOK) : (V.symbols.filter fun e => Flags.isDiacritic e.2) =
    ((V.symbols.filter fun e => Flags.isDiacritic e.2).map (·.1)).map fun x => (x, V.symbol x) := by
  rw [List.map_map]
  symm
  conv_rhs => rw [← List.map_id (V.symbols.filter _)]
  apply List.map_congr_left
  intro e he
  have := symbol_of_mem h.labels (List.mem_filter.mp he).1
  exact Prod.ext rfl this

theorem flagTable_good {V : View} (h : V.FlagsOK) {fd : Flags.FdTable Nat} (hfd : V.flagTable = some fd) :
    FlagTableOK fd ∧ (∀ x, (fd.getOperation x).isSome = true ↔ Flags.isDiacritic (V.symbol x) = true) ∧
      ∀ xs, fd.passes (Flags.FdState.init fd.numFeatures) xs = some (Flags.sIsValidString ((xs.map V.symbol).filter Flags.isDiacritic)) := by
  obtain ⟨h1, h2⟩ := Hfst.Ol.defineAll_ok _ hfd ⟨(fun f n hf => by cases hf), (fun x o ho => by cases ho)⟩
  refine ⟨h1, fun x => ?_, fun xs => ?_⟩
  · rw [Option.isSome_iff_exists, h2]
    have hno : ¬ ∃ o, (Flags.FdTable.empty : Flags.FdTable Nat).getOperation x = some o := fun ⟨o, ho⟩ => by cases ho
    simp only [hno, or_false, List.mem_filter]
    constructor
    · rintro ⟨s, h3, h4⟩
      rw [symbol_of_mem h.labels h3]
      exact h4
    · intro h3
      exact ⟨_, symbol_mem h3, h3⟩
  · rw [Hfst.Ol.valid_filter]
    have hfd' := hfd
    unfold View.flagTable at hfd'
    rw [flag_defs h] at hfd'
    refine Flags.C03_engines_agree_partial V.symbol _ fd hfd' ?_ ?_ xs ?_
    · have h3 : fd.valueMap.length ≤ 1 + (V.symbols.filter fun e => Flags.isDiacritic e.2).length := Hfst.Ol.defineAll_values _ hfd
      have h5 : (V.symbols.filter fun e => Flags.isDiacritic e.2).length ≤ V.symbols.length := List.length_filter_le _ _
      have := h.few
      omega
    · intro x hx
      obtain ⟨e, he, rfl⟩ := List.mem_map.mp hx
      have he := (List.mem_filter.mp he).1
      rw [symbol_of_mem h.labels he]
      exact h.values e he
    · intro x _ hx
      exact List.mem_map.mpr ⟨_, List.mem_filter.mpr ⟨symbol_mem hx, hx⟩, rfl⟩

/-- How the paths are wanted in a call of `extractPaths`. -/
def wanted (V : View) (obey leaveOut : Bool) (cycles : Int) (E : Wanted) : Prop :=
  (obey = true ∧ V.FlagsOK ∧ ∃ fd, V.flagTable = some fd ∧ E = ⟨cycles, some fd, leaveOut⟩) ∨ (obey = false ∧ E = ⟨cycles, none, false⟩)

/-- The values of the flags at the start. -/
def flagsAtStart (E : Wanted) : Flags.FdState := Flags.FdState.init (match E.fd with
  | none => 0
  | some fd => fd.numFeatures)

theorem wanted_ok {V : View} {obey leaveOut : Bool} {cycles : Int} {E : Wanted} (h : wanted V obey leaveOut cycles E) :
    Sensible E ∧ E.Room (flagsAtStart E) ∧ E.cycles = cycles ∧ (∀ x, show1 V E x = V.shown (obey && leaveOut) x) ∧
      ∀ xs, E.Passes (flagsAtStart E) xs ↔ (obey = true → Flags.sIsValidString ((xs.map V.symbol).filter Flags.isDiacritic) = true) := by
  rcases h with ⟨rfl, hf, fd, hfd, rfl⟩ | ⟨rfl, rfl⟩
  · obtain ⟨h1, h2, h3⟩ := flagTable_good hf hfd
    refine ⟨⟨?_, fun _ => ⟨fd, rfl⟩⟩, ?_, rfl, fun x => ?_, fun xs => ?_⟩
    · intro fd' he
      injection he with he
      exact he ▸ h1
    · intro fd' he
      injection he with he
      subst he
      simp [flagsAtStart, Flags.FdState.init]
    · unfold show1 View.shown
      have : (leaveOut = true ∧ ∃ fd', some fd = some fd' ∧ (fd'.getOperation x).isSome = true) ↔
          ((true && leaveOut) = true ∧ Flags.isDiacritic (V.symbol x) = true) := by
        rw [← h2 x, Bool.true_and]
        constructor
        · rintro ⟨a, fd', b, c⟩
          injection b with b
          exact ⟨a, b ▸ c⟩
        · rintro ⟨a, b⟩
          exact ⟨a, fd, rfl, b⟩
      simp only [this]
    · constructor
      · intro h _
        have := h fd rfl
        rw [show flagsAtStart ⟨cycles, some fd, leaveOut⟩ = Flags.FdState.init fd.numFeatures from rfl, h3] at this
        injection this
      · intro h fd' he
        injection he with he
        subst he
        rw [show flagsAtStart ⟨cycles, some fd, leaveOut⟩ = Flags.FdState.init fd.numFeatures from rfl, h3, h rfl]
  · refine ⟨⟨(fun fd h => by cases h), (fun h => by cases h)⟩, (fun fd h => by cases h), rfl, fun x => ?_, fun xs => ⟨(fun _ h => by cases h), fun _ fd h => by cases h⟩⟩
    unfold show1 View.shown
    rw [if_neg (by rintro ⟨h, _⟩; cases h), if_neg (by rintro ⟨h, _⟩; cases h)]

/-- The paths below the start are the paths that are not empty. -/
theorem below_start {V : View} {obey leaveOut : Bool} {cycles : Int} {E : Wanted} (h : wanted V obey leaveOut cycles E) {q : Nat} (hq : V.start = some q)
    (p : Found) : Below V E [] q 0 [] (flagsAtStart E) p ↔ V.Yields obey (obey && leaveOut) cycles p ∧ p.2 ≠ [] := by
  obtain ⟨_, _, h1, h2, h3⟩ := wanted_ok h
  have hshow : ∀ l : List OArc, (l.map fun a => (show1 V E a.ilabel, show1 V E a.olabel)) =
      l.map fun a => (V.shown (obey && leaveOut) a.ilabel, V.shown (obey && leaveOut) a.olabel) := by
    intro l
    simp only [h2]
  have hfits : ∀ l : List OArc, (Fits E [] q l ∧ E.Passes (flagsAtStart E) (l.map (·.ilabel))) ↔ V.Asked obey cycles q l := by
    intro l
    unfold Fits View.Asked
    rw [h3, h1, List.map_map]
    simp only [List.count_nil, Nat.add_zero]
    rfl
  constructor
  · rintro ⟨l, r, d, f, a1, a2, a3, a4, a5, a6, rfl⟩
    refine ⟨⟨q, l, r, d, f, hq, a2, a3, a4, (hfits l).mp ⟨a5, a6⟩, ?_⟩, ?_⟩
    · rw [hshow, Int.zero_add, List.nil_append]
    · simpa using a1
  · rintro ⟨⟨q', l, r, d, f, a1, a2, a3, a4, a5, rfl⟩, a6⟩
    rw [hq] at a1
    injection a1 with a1
    subst a1
    refine ⟨l, r, d, f, (fun _ h => a6 (by simp [h])), a2, a3, a4, ((hfits l).mpr a5).1, ((hfits l).mpr a5).2, ?_⟩
    rw [hshow, Int.zero_add, List.nil_append]

/-- The empty path is the path without arcs. -/
theorem yields_empty {V : View} {obey leaveOut : Bool} {cycles : Int} {q : Nat} (hq : V.start = some q) (p : Found) :
    (V.Yields obey leaveOut cycles p ∧ p.2 = []) ↔ ∃ f, (V.node q).bind (·.final) = some f ∧ p = (f, []) := by
  constructor
  · rintro ⟨⟨q', l, r, d, f, a1, a2, a3, a4, a5, rfl⟩, a6⟩
    rw [hq] at a1
    injection a1 with a1
    subst a1
    have hl : l = [] := by simpa using a6
    subst hl
    cases a2
    refine ⟨f, by rw [a3]; exact a4, by simp⟩
  · rintro ⟨f, h, rfl⟩
    obtain ⟨d, h1, h2⟩ := Option.bind_eq_some_iff.mp h
    refine ⟨⟨q, [], q, d, f, hq, .nil, h1, h2, ⟨?_, ?_⟩, by simp⟩, rfl⟩
    · by_cases hc : cycles < 0
      · exact .inl hc
      · refine .inr fun r => ?_
        have : ([q].count r) ≤ 1 := List.count_le_length
        rw [List.map_nil]
        omega
    · intro _
      rfl

/-- The start of the search. -/
theorem extract_start {σ : Type} {V : View} {q : Nat} (hq : V.start = some q) (E : Wanted) (cb : Callback σ) (fuel : Nat) (c : σ) :
    V.extract E cb fuel c = (V.search E cb fuel [] q 0 [] (flagsAtStart E) [] c).bind fun x =>
      if V.emptyLast then
        match (V.node q).bind (·.final) with
        | none => .ok x.2.2
        | some f => .ok (cb x.2.2 (f, []) true).1
      else .ok x.2.2 := by
  unfold View.extract
  rw [hq]
  rfl

theorem trail_nil {V : View} {E : Wanted} (h : E.cycles + 1 < V.modulus) : TrailFits V E [] := by
  by_cases h0 : E.cycles < 0
  · exact .inl h0
  · exact .inr ⟨fun r => by rw [List.count_nil]; omega, h⟩

theorem extractPaths_extract {V : View} {cyclic obey leaveOut : Bool} {maxNum cycles : Int} {fuel : Nat} {c r : List Found} (hfl : obey = true → V.FlagsOK)
    (h : extractPaths V cyclic obey leaveOut maxNum cycles fuel c = .ok r) :
    ∃ E, wanted V obey leaveOut cycles E ∧ V.extract E (collect maxNum) fuel c = .ok r := by
  unfold extractPaths at h
  split at h
  · cases h
  · cases obey with
    | false => exact ⟨_, .inr ⟨rfl, rfl⟩, h⟩
    | true =>
      simp only [if_true] at h
      split at h
      · cases h
      · rename_i fd hfd
        exact ⟨_, .inl ⟨rfl, hfl rfl, fd, hfd, rfl⟩, h⟩

/-- **C88, what is found**: the results are those that were there before and paths that are wanted, each once; if there is no limit or the limit is not
reached, all paths that are wanted are there.  With log weights the empty path is left out (`C88_log_violated`). -/
theorem C88_found {V : View} {cyclic obey leaveOut : Bool} {maxNum cycles : Int} {fuel : Nat} {c r : List Found} (hfl : obey = true → V.FlagsOK)
    (hcyc : cycles + 1 < V.modulus) (h : extractPaths V cyclic obey leaveOut maxNum cycles fuel c = .ok r) :
    (∀ p ∈ c, p ∈ r) ∧ (∀ p ∈ r, p ∈ c ∨ V.Yields obey (obey && leaveOut) cycles p) ∧ (c.Nodup → r.Nodup) ∧
      ((maxNum < 1 ∨ (r.length : Int) < maxNum) → ∀ p, V.Yields obey (obey && leaveOut) cycles p → (V.emptyLast = true ∨ p.2 ≠ []) → p ∈ r) := by
  obtain ⟨E, hE, h⟩ := extractPaths_extract hfl h
  obtain ⟨h1, h2, h3, _, _⟩ := wanted_ok hE
  cases hq : V.start with
  | none =>
    unfold View.extract at h
    rw [hq] at h
    injection h with h
    subst h
    refine ⟨fun _ hp => hp, fun _ hp => .inl hp, fun hc => hc, ?_⟩
    rintro _ p ⟨q, _, _, _, _, h, _⟩
    rw [hq] at h
    cases h
  | some q =>
    rw [extract_start hq] at h
    cases hs : V.search E (collect maxNum) fuel [] q 0 [] (flagsAtStart E) [] c with
    | throws => rw [hs] at h; cases h
    | undefined => rw [hs] at h; cases h
    | ok x =>
      rw [hs] at h
      obtain ⟨b, all, c'⟩ := x
      simp only [Outcome.bind] at h
      have hc := search_ok h1 maxNum fuel [] q 0 [] (flagsAtStart E) [] c b all c' (trail_nil (by rw [h3]; exact hcyc)) h2 hs
      · have hbelow := below_start hE hq
        have hkey : c' <:+ r ∧ (∀ p ∈ r, p ∈ c' ∨ (V.Yields obey (obey && leaveOut) cycles p ∧ p.2 = [])) ∧ (c'.Nodup → r.Nodup) ∧
            (V.emptyLast = true → ∀ p, V.Yields obey (obey && leaveOut) cycles p → p.2 = [] → p ∈ r) := by
          by_cases he : V.emptyLast = true
          · rw [if_pos he] at h
            cases hf : (V.node q).bind (·.final) with
            | none =>
              simp only [hf] at h
              injection h with h
              subst h
              refine ⟨List.suffix_refl _, fun p hp => .inl hp, fun hn => hn, fun _ p hp hp2 => ?_⟩
              obtain ⟨f, hff, _⟩ := (yields_empty hq p).mp ⟨hp, hp2⟩
              rw [hf] at hff
              cases hff
            | some f =>
              simp only [hf] at h
              injection h with h
              obtain ⟨hcol, _⟩ := collect_ok maxNum c' (f, []) true
              rw [h] at hcol
              refine ⟨hcol.keeps, fun p hp => ?_, hcol.nodup, fun _ p hp hp2 => ?_⟩
              · rcases hcol.sound p hp with h4 | ⟨_, h4⟩
                · exact .inl h4
                · exact .inr ((yields_empty hq p).mpr ⟨f, hf, h4⟩)
              · obtain ⟨f', hff, rfl⟩ := (yields_empty hq p).mp ⟨hp, hp2⟩
                rw [hf] at hff
                injection hff with hff
                subst hff
                rw [← h]
                unfold collect Hfst.Basic.setInsert
                simp only [if_true]
                split
                · assumption
                · exact List.mem_cons_self ..
          · rw [if_neg he] at h
            injection h with h
            subst h
            exact ⟨List.suffix_refl _, fun p hp => .inl hp, fun hn => hn, fun h => absurd h he⟩
        obtain ⟨k1, k2, k3, k4⟩ := hkey
        refine ⟨fun p hp => k1.subset (hc.keeps.subset hp), fun p hp => ?_, fun hn => k3 (hc.nodup hn), fun hlim p hp hp2 => ?_⟩
        · rcases k2 p hp with h4 | h4
          · rcases hc.sound p h4 with h5 | h5
            · exact .inl h5
            · exact .inr ((hbelow p).mp h5).1
          · exact .inr h4.1
        · by_cases hpe : p.2 = []
          · rcases hp2 with hp2 | hp2
            · exact k4 hp2 p hp hpe
            · exact absurd hpe hp2
          · have hb : b = true := by
              cases b with
              | true => rfl
              | false =>
                have := hc.stops rfl
                have hle := k1.length_le
                omega
            exact k1.subset (hc.complete hb p ((hbelow p).mpr ⟨hp, hpe⟩))
/-- **C88, the limit**: if there was place for more before, at most `maxNum` results are there afterwards, or one more if the transducer accepts the empty
path.  That there are never more than `maxNum` is false: `C88_limit_violated`. -/
theorem C88_limit_partial {V : View} {cyclic obey leaveOut : Bool} {maxNum cycles : Int} {fuel : Nat} {c r : List Found} (hfl : obey = true → V.FlagsOK)
    (hcyc : cycles + 1 < V.modulus) (hc : (c.length : Int) < maxNum) (h : extractPaths V cyclic obey leaveOut maxNum cycles fuel c = .ok r) :
    (r.length : Int) ≤ maxNum + 1 ∧ (¬ V.AcceptsEmpty → (r.length : Int) ≤ maxNum) := by
  obtain ⟨E, hE, h⟩ := extractPaths_extract hfl h
  obtain ⟨h1, h2, h3, _, _⟩ := wanted_ok hE
  cases hq : V.start with
  | none =>
    unfold View.extract at h
    rw [hq] at h
    injection h with h
    subst h
    omega
  | some q =>
    rw [extract_start hq] at h
    cases hs : V.search E (collect maxNum) fuel [] q 0 [] (flagsAtStart E) [] c with
    | throws => rw [hs] at h; cases h
    | undefined => rw [hs] at h; cases h
    | ok x =>
      rw [hs] at h
      obtain ⟨b, all, c'⟩ := x
      simp only [Outcome.bind] at h
      have hcol := search_ok h1 maxNum fuel [] q 0 [] (flagsAtStart E) [] c b all c' (trail_nil (by rw [h3]; exact hcyc)) h2 hs
      have hlen := hcol.limit (.inr hc) (by omega)
      have hsame : r = c' → _ := fun e => (show (r.length : Int) ≤ maxNum + 1 ∧ (¬ V.AcceptsEmpty → (r.length : Int) ≤ maxNum) from by
        rw [e]
        omega)
      split at h
      · split at h
        · injection h with h
          exact hsame h.symm
        · rename_i f hf
          injection h with h
          have hle : r.length ≤ c'.length + 1 := by
            rw [← h]
            unfold collect Hfst.Basic.setInsert
            simp only [if_true]
            split <;> simp
          refine ⟨by omega, fun hno => absurd ?_ hno⟩
          obtain ⟨d, hd, hdf⟩ := Option.bind_eq_some_iff.mp hf
          exact ⟨q, d, f, hq, hd, hdf⟩
      · injection h with h
        exact hsame h.symm

/-! ## The search ends -/

theorem arcsLoop_ends {σ : Type} {V : View} {E : Wanted} (hE : Sensible E) {call : Call σ} {w : Int} {spv : List (Sym × Sym)}
    {fs : Flags.FdState} (hfs : E.Room fs) : ∀ (l : List OArc) (all : List Nat) (c : σ),
    (∀ a ∈ l, ∀ w spv fs all c, E.Room fs → ∃ x, call a.next w spv fs all c = .ok x) → ∃ x, V.arcsLoop E call w spv fs l all c = .ok x
  | [], all, c, _ => ⟨_, rfl⟩
  | a :: l, all, c, hcall => by
    unfold View.arcsLoop
    have hrest := fun all c => arcsLoop_ends (V := V) (w := w) (spv := spv) hE hfs l all c fun x hx => hcall x (List.mem_cons_of_mem _ hx)
    rcases step_flags hE.fd hfs a.ilabel with ⟨hf, _⟩ | ⟨fs', hf, hroom, _⟩
    · rw [hf]
      exact hrest all c
    · rw [hf, shownName_ok hE, shownName_ok hE]
      obtain ⟨⟨b, all', c'⟩, h⟩ := hcall a (List.mem_cons_self ..) (w + a.weight) (spv ++ [(show1 V E a.ilabel, show1 V E a.olabel)]) fs' all c hroom
      simp only [Outcome.bind, h]
      split
      · exact hrest _ _
      · exact ⟨_, rfl⟩

theorem search_ends {σ : Type} {V : View} {size : Nat} (hV : V.OK size) {E : Wanted} (hE : Sensible E) (cb : Callback σ) :
    ∀ (n : Nat) (trail : List Nat) (s : Nat) (w : Int) (spv : List (Sym × Sym)) (fs : Flags.FdState) (all : List Nat) (c : σ),
      TrailFits V E trail → E.Room fs → (V.node s).isSome = true → 1 ≤ n → (∀ l r, V.Path s l r → Fits E trail s l → l.length + 2 ≤ n) →
        ∃ x, V.search E cb n trail s w spv fs all c = .ok x
  | 0, _, _, _, _, _, _, _, _, _, _, h, _ => by omega
  | n + 1, trail, s, w, spv, fs, all, c, ht, hfs, hs, _, hlen => by
    unfold View.search
    by_cases hstop : 0 ≤ E.cycles ∧ E.cycles < (trail.count s % V.modulus : Nat)
    · rw [if_pos hstop]
      exact ⟨_, rfl⟩
    · rw [if_neg hstop]
      have ht' := (entered ht).1 hstop
      obtain ⟨d, hd⟩ := Option.isSome_iff_exists.mp hs
      rw [hd]
      dsimp only
      have hn := hlen [] s .nil (fits_nil ht')
      rw [List.length_nil] at hn
      generalize (if spv = [] then (c, true, true) else cb c (w + d.final.getD 0, spv) d.final.isSome) = r
      obtain ⟨c', goOn, further⟩ := r
      dsimp only
      split
      · exact ⟨_, rfl⟩
      · refine arcsLoop_ends hE hfs _ _ _ ?_
        intro a ha w' spv' fs' all' c'' hroom
        have ha := mem_sortArcs.mp ha
        refine search_ends hV hE cb n (s :: trail) a.next w' spv' fs' all' c'' ht' hroom (hV.arcs s d a hd ha) (by omega) ?_
        intro l r hl hfit
        have := hlen (a :: l) r (.cons hd ha hl) (fits_back hfit)
        rw [List.length_cons] at this
        omega

theorem length_bound : ∀ (n K : Nat) (l : List Nat), (∀ x ∈ l, x < n) → (∀ x, l.count x ≤ K) → l.length ≤ n * K
  | 0, K, l, h, _ => by
    cases l with
    | nil => simp
    | cons x l => exact absurd (h x (List.mem_cons_self ..)) (by omega)
  | n + 1, K, l, h, hc => by
    have h1 : l.length = l.count n + (l.filter fun x => decide (x ≠ n)).length := by
      clear h hc
      induction l with
      | nil => rfl
      | cons x l ih =>
        rw [List.length_cons, List.count_cons, List.filter_cons]
        by_cases hx : x = n
        · subst hx
          simp only [beq_self_eq_true, if_true, ne_eq, not_true_eq_false, decide_false, Bool.false_eq_true, if_false] at ih ⊢
          omega
        · have hb : (x == n) = false := by simpa using hx
          simp only [hb, ne_eq, hx, not_false_eq_true, decide_true, if_true, Bool.false_eq_true, if_false, List.length_cons] at ih ⊢
          omega
    have h2 := length_bound n K (l.filter fun x => decide (x ≠ n)) (fun x hx => by
      obtain ⟨h3, h4⟩ := List.mem_filter.mp hx
      have h5 := h x h3
      have h6 : x ≠ n := by simpa using h4
      omega) (fun x => Nat.le_trans (List.Sublist.count_le x List.filter_sublist) (hc x))
    have h3 := hc n
    rw [Nat.succ_mul]
    omega

theorem path_states {V : View} {size : Nat} (hV : V.OK size) {q r : Nat} {l : List OArc} (h : V.Path q l r) (hq : (V.node q).isSome = true) :
    ∀ x ∈ q :: l.map (·.next), x < size := by
  induction h with
  | nil =>
    intro x hx
    rw [List.map_nil, List.mem_singleton] at hx
    exact hx ▸ hV.size _ hq
  | @cons q r d a l hd ha _ ih =>
    intro x hx
    rcases List.mem_cons.mp hx with rfl | hx
    · exact hV.size _ hq
    · rw [List.map_cons] at hx
      exact ih (hV.arcs _ _ _ hd ha) x hx

theorem path_append {V : View} {q r s : Nat} {l m : List OArc} (h : V.Path q l r) (h' : V.Path r m s) : V.Path q (l ++ m) s := by
  induction h with
  | nil => exact h'
  | cons hd ha _ ih => exact .cons hd ha (ih h')

theorem path_split {V : View} {q r : Nat} {l : List OArc} (h : V.Path q l r) {x : Nat} (hx : x ∈ q :: l.map (·.next)) : ∃ m, V.Path q m x := by
  induction h with
  | nil =>
    rw [List.map_nil, List.mem_singleton] at hx
    exact ⟨[], hx ▸ .nil⟩
  | @cons q r d a l hd ha _ ih =>
    rcases List.mem_cons.mp hx with rfl | hx
    · exact ⟨[], .nil⟩
    · rw [List.map_cons] at hx
      obtain ⟨m, hm⟩ := ih hx
      exact ⟨a :: m, .cons hd ha hm⟩

theorem path_nodup {V : View} {q0 : Nat} (hq0 : V.start = some q0) (hacyc : ¬ V.Cyclic) {q r : Nat} {l : List OArc} (h : V.Path q l r) :
    (∃ k, V.Path q0 k q) → (q :: l.map (·.next)).Nodup := by
  induction h with
  | nil => exact fun _ => by simp
  | @cons q r d a l hd ha hl ih =>
    rintro ⟨k, hk⟩
    rw [List.nodup_cons]
    constructor
    · intro hmem
      rw [List.map_cons] at hmem
      obtain ⟨m, hm⟩ := path_split hl hmem
      exact hacyc ⟨q0, k, q, a :: m, hq0, hk, (fun h => by cases h), .cons hd ha hm⟩
    · rw [List.map_cons]
      exact ih ⟨k ++ [a], path_append hk (.cons hd ha .nil)⟩

/-- **C88, the search ends** if the number of cycles is limited or there are none. -/
theorem C88_ends {V : View} {size : Nat} (hV : V.OK size) {cyclic obey leaveOut : Bool} {maxNum cycles : Int} (hcyclic : cyclic = true ↔ V.Cyclic)
    (hfl : obey = true → V.FlagsOK ∧ V.flagTable.isSome = true) (hcyc : cycles + 1 < V.modulus) (hend : 0 ≤ cycles ∨ ¬ V.Cyclic)
    {fuel : Nat} (hfuel : size * (cycles.toNat + 1) + 1 ≤ fuel) (c : List Found) :
    ∃ r, extractPaths V cyclic obey leaveOut maxNum cycles fuel c = .ok r := by
  have hgo : ∀ E, wanted V obey leaveOut cycles E → ∃ r, V.extract E (collect maxNum) fuel c = .ok r := by
    intro E hE
    obtain ⟨h1, h2, h3, _, _⟩ := wanted_ok hE
    cases hq : V.start with
    | none =>
      unfold View.extract
      rw [hq]
      exact ⟨_, rfl⟩
    | some q =>
      rw [extract_start hq]
      have hs := hV.start q hq
      obtain ⟨x, hx⟩ := search_ends hV h1 (collect maxNum) fuel [] q 0 [] (flagsAtStart E) [] c (trail_nil (by rw [h3]; exact hcyc)) h2 hs (by omega) (by
        intro l r hl hfit
        have hb : (q :: l.map (·.next)).length ≤ size * (cycles.toNat + 1) := by
          apply length_bound
          · exact path_states hV hl hs
          · intro x
            by_cases h0 : 0 ≤ cycles
            · rcases hfit with hfit | hfit
              · omega
              · have := hfit x
                rw [List.count_nil, h3] at this
                omega
            · have hac : ¬ V.Cyclic := hend.resolve_left h0
              have := List.nodup_iff_count_le_one.mp (path_nodup hq hac hl ⟨[], .nil⟩) x
              omega
        rw [List.length_cons, List.length_map] at hb
        omega)
      rw [hx]
      simp only [Outcome.bind]
      split
      · split
        · exact ⟨_, rfl⟩
        · exact ⟨_, rfl⟩
      · exact ⟨_, rfl⟩
  unfold extractPaths
  rw [if_neg (by
    rintro ⟨h1, _, h3⟩
    rcases hend with h | h
    · omega
    · exact h (hcyclic.mp h1))]
  cases obey with
  | false => exact hgo _ (.inr ⟨rfl, rfl⟩)
  | true =>
    obtain ⟨hf, hsome⟩ := hfl rfl
    obtain ⟨fd, hfd⟩ := Option.isSome_iff_exists.mp hsome
    simp only [if_true, hfd]
    exact hgo _ (.inl ⟨rfl, hf, fd, hfd, rfl⟩)

/-- **C88, refusal**: all paths of a cyclic transducer are not asked for without an exception. -/
theorem C88_refused {V : View} {cyclic obey leaveOut : Bool} {maxNum cycles : Int} (hcyclic : cyclic = true ↔ V.Cyclic) (h : V.Cyclic) (hnum : maxNum < 1)
    (hcyc : cycles < 0) (fuel : Nat) (c : List Found) : extractPaths V cyclic obey leaveOut maxNum cycles fuel c = .throws := by
  unfold extractPaths
  rw [if_pos ⟨hcyclic.mpr h, hnum, hcyc⟩]

/-- **C88, how many**: without a limit there are as many results as there are paths that are wanted; with a limit, as many as that, or the limit is
reached. -/
theorem C88_reaches {V : View} {cyclic obey leaveOut : Bool} {maxNum cycles : Int} {fuel : Nat} {c r : List Found} (hfl : obey = true → V.FlagsOK)
    (hcyc : cycles + 1 < V.modulus) (hempty : V.emptyLast = true) (h : extractPaths V cyclic obey leaveOut maxNum cycles fuel c = .ok r)
    {l : List Found} (hl : l.Nodup) (hall : ∀ p ∈ l, V.Yields obey (obey && leaveOut) cycles p) :
    l.length ≤ r.length ∨ (1 ≤ maxNum ∧ maxNum ≤ r.length) := by
  by_cases hm : maxNum < 1 ∨ (r.length : Int) < maxNum
  · left
    have h1 := (C88_found hfl hcyc h).2.2.2 hm
    exact (hl.subperm fun p hp => h1 p (hall p hp) (.inl hempty)).length_le
  · right
    omega

end Hfst.Extract
