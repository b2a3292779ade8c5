import Verif.Props.SfstCompose
import Verif.Props.SfstStar

/-!
# Concrete SFST transducers: cases of the theorems, and where the operations go wrong
-/

namespace Hfst.Sfst

/-- A graph with the given nodes. -/
def Graph.ofList (ns : List Node) : Graph := ⟨ns.length, fun n => ns.getD n Node.init⟩

instance (g : Graph) : Decidable g.Closed :=
  inferInstanceAs (Decidable (0 < g.size ∧ ∀ n, n < g.size → ∀ a ∈ (g.node n).arcs, a.2 < g.size))

instance (g : Graph) (n : Nat) (l : Label) (m : Nat) : Decidable (g.Step n l m) :=
  inferInstanceAs (Decidable ((l, m) ∈ (g.node n).arcs))

theorem Graph.Closed.low {g : Graph} (h : g.Closed) {n : Nat} (hr : g.Reach 0 n) : n < g.size := by
  have : ∀ {a b : Nat}, g.Reach a b → a < g.size → b < g.size := by
    intro a b h'
    induction h' with
    | refl => exact id
    | step hs _ ih => exact fun ha => ih (h.2 _ ha _ hs)
  exact this hr h.1

/-- Determinism, node by node. -/
theorem deterministic_of_check {g : Graph} (h : g.Closed)
    (hc : ∀ n, n < g.size →
      (∀ a ∈ (g.node n).arcs, a.1 ≠ ⟨0, 0⟩) ∧ ((g.node n).arcs.map (fun a => a.1)).Nodup) :
    g.Deterministic := fun n hr => hc n (h.low hr)

/-- Nothing is accepted where no node is final. -/
theorem not_takes_of_check {g : Graph} (h : g.Closed) (hc : ∀ n, n < g.size → (g.node n).final = false)
    (w : List Label) : ¬ g.Takes 0 w := by
  have : ∀ {n : Nat} {w : List Label}, g.Takes n w → n < g.size → False := by
    intro n w h'
    induction h' with
    | stop hf => intro hn; rw [hc _ hn] at hf; cases hf
    | skip hs _ ih => exact fun hn => ih (h.2 _ hn _ hs)
    | read _ hs _ ih => exact fun hn => ih (h.2 _ hn _ hs)
  exact fun h' => this h' h.1

/-- The transducer of the pairs (a, x) and (b, y) followed by any number of c: 2 for a, 3 for b, 4 for c,
5 for x, 6 for y; not deterministic, with an arc 0:0 and a cycle. -/
def demo : Fst :=
  ⟨.ofList [⟨[(⟨2, 5⟩, 1), (⟨3, 6⟩, 2)], false⟩, ⟨[(⟨0, 0⟩, 2)], false⟩, ⟨[(⟨4, 4⟩, 2)], true⟩], false, false,
    [⟨2, 5⟩, ⟨3, 6⟩, ⟨4, 4⟩]⟩

theorem demo_honest : demo.Honest :=
  ⟨by decide +kernel, (by intro h; cases h), (by intro h; cases h)⟩

theorem demo_takes : demo.Takes [⟨2, 5⟩, ⟨4, 4⟩] := by
  refine .read (k' := 1) (by decide) (by decide +kernel) ?_
  refine .skip (k' := 2) (by decide +kernel) ?_
  refine .read (k' := 2) (by decide) (by decide +kernel) ?_
  exact .stop (by decide +kernel)

theorem demo_relates : demo.Relates [2, 4] [5, 4] := ⟨_, demo_takes, by decide, by decide⟩

/-- The transducer that rewrites x to z (7), and leaves the symbol for c. -/
def demo2 : Fst :=
  ⟨.ofList [⟨[(⟨5, 7⟩, 0), (⟨4, 4⟩, 0)], true⟩], true, false, [⟨5, 7⟩, ⟨4, 4⟩]⟩

theorem demo2_honest : demo2.Honest :=
  ⟨by decide +kernel, fun _ => deterministic_of_check (by decide +kernel) (by decide +kernel),
    (by intro h; cases h)⟩

theorem demo2_relates : demo2.Relates [5, 4] [7, 4] := by
  refine ⟨[⟨5, 7⟩, ⟨4, 4⟩], ?_, by decide, by decide⟩
  refine .read (k' := 0) (by decide) (by decide +kernel) ?_
  refine .read (k' := 0) (by decide) (by decide +kernel) ?_
  exact .stop (by decide +kernel)

/-- Cases of `C65_copy`: the copy accepts it, and the inverse relates the other way round. -/
example : (∃ R, demo.copy false = some R ∧ R.Takes [⟨2, 5⟩, ⟨4, 4⟩]) ∧
    ∃ R, demo.copy true = some R ∧ R.Relates [5, 4] [2, 4] := by
  obtain ⟨⟨R, h, _, ht⟩, R', h', _, ht'⟩ := C65_copy demo_honest
  exact ⟨⟨R, h, (ht _).2 demo_takes⟩, R', h', (ht' _ _).2 demo_relates⟩

/-- A case of `C65_level`. -/
example : ∃ R, demo.level .lower = some R ∧ R.Relates [2, 4] [2, 4] := by
  obtain ⟨R, h, _, ht⟩ := (C65_level demo_honest.closed).1
  exact ⟨R, h, (ht _ _).2 ⟨rfl, _, demo_relates⟩⟩

/-- A case of `C65_replace_partial`: the symbol for c is deleted. -/
example : ∃ R, demo.replaceChar 4 0 = some R ∧ R.Relates [2] [5] := by
  obtain ⟨R, h, _, ht⟩ := C65_replace_partial demo_honest.closed (c := 4) (by decide) 0
  exact ⟨R, h, (ht _ _).2 ⟨_, _, demo_relates, by decide, by decide⟩⟩

/-- Cases of `C65_union`, `C65_concat` and `C65_reverse`. -/
example : (∃ R, demo.union demo2 = some R ∧ R.Takes [⟨2, 5⟩, ⟨4, 4⟩]) ∧
    (∃ R, demo.concat demo2 = some R ∧ R.Takes [⟨2, 5⟩, ⟨4, 4⟩]) ∧
    (∃ R, demo.reverse true = some R ∧ R.Takes [⟨4, 4⟩, ⟨2, 5⟩]) := by
  refine ⟨?_, ?_, ?_⟩
  · obtain ⟨R, h, _, ht⟩ := C65_union demo_honest.closed demo2_honest.closed
    exact ⟨R, h, (ht _).2 (.inl demo_takes)⟩
  · obtain ⟨R, h, _, ht⟩ := C65_concat demo_honest.closed demo2_honest.closed
    exact ⟨R, h, (ht _).2 ⟨_, [], rfl, demo_takes, .stop (by decide +kernel)⟩⟩
  · obtain ⟨R, h, _, ht⟩ := C65_reverse demo_honest.closed true
    exact ⟨R, h, (ht _).2 demo_takes⟩

/-- Cases of `C65_star`, `C65_plus_optional` and `C65_times`. -/
example : (∃ R, demo.star = some R ∧ R.Takes [⟨2, 5⟩, ⟨4, 4⟩, ⟨2, 5⟩, ⟨4, 4⟩]) ∧
    (∃ R, demo.optional = some R ∧ R.Takes []) ∧
    (∃ R, demo.repeatN 2 = some R ∧ R.Takes [⟨2, 5⟩, ⟨4, 4⟩, ⟨2, 5⟩, ⟨4, 4⟩]) := by
  refine ⟨?_, ?_, ?_⟩
  · obtain ⟨R, h, _, ht⟩ := C65_star demo_honest
    exact ⟨R, h, (ht _).2 (.more demo_takes (.more demo_takes .none))⟩
  · obtain ⟨R, h, _, ht⟩ := (C65_plus_optional demo_honest).2
    exact ⟨R, h, (ht _).2 (.inr rfl)⟩
  · obtain ⟨R, h, _, ht⟩ := (C65_times demo_honest 2).1
    exact ⟨R, h, (ht _).2 (.succ (.succ .zero demo_takes) demo_takes)⟩

/-- A case of `C65_insert_partial`. -/
example : ∃ R, demo.freelyInsert ⟨8, 8⟩ = some R ∧ R.Honest ∧ R.Takes [⟨2, 5⟩, ⟨8, 8⟩, ⟨4, 4⟩] := by
  obtain ⟨R, h, _, hh, ht⟩ := C65_insert_partial demo_honest (l := ⟨8, 8⟩) (by decide)
  exact ⟨R, h, hh rfl rfl, (ht _).2 ⟨_, demo_takes, .keep (.put (.keep .done))⟩⟩

/-- Cases of `C66_determinise` and `C66_intersect`. -/
example : (∃ R, demo.determinise true = some R ∧ R.graph.Deterministic ∧ R.Takes [⟨2, 5⟩, ⟨4, 4⟩]) ∧
    (∃ R, demo.intersect demo = some R ∧ R.Takes [⟨2, 5⟩, ⟨4, 4⟩]) := by
  constructor
  · obtain ⟨R, h, _, _, hd, ht⟩ := C66_determinise demo_honest true
    exact ⟨R, h, hd, (ht _).2 demo_takes⟩
  · obtain ⟨R, h, _, _, ht⟩ := C66_intersect demo_honest demo_honest
    exact ⟨R, h, (ht _).2 ⟨demo_takes, demo_takes⟩⟩

/-- A case of `C67_compose` and `C65_relations`. -/
example : (∃ R, demo.compose demo2 = some R ∧ R.Relates [2, 4] [7, 4]) ∧
    (∃ R, demo.union demo2 = some R ∧ R.Relates [5, 4] [7, 4]) := by
  constructor
  · obtain ⟨R, h, _, ht⟩ := C67_compose demo_honest.closed demo2_honest.closed
    exact ⟨R, h, (ht _ _).2 ⟨_, demo_relates, demo2_relates⟩⟩
  · obtain ⟨R, h, ht⟩ := (C65_relations demo_honest.closed demo2_honest.closed).1
    exact ⟨R, h, (ht _ _).2 (.inr demo2_relates)⟩

/-! ## Where it goes wrong -/

theorem some_getD {o : Option Fst} {d : Fst} (h : o.isSome = true) : some (o.getD d) = o := by
  cases o with
  | none => cases h
  | some _ => rfl

/-- The one-symbol string a, known to be deterministic. -/
def oneA : Fst := ⟨.ofList [⟨[(⟨2, 2⟩, 1)], false⟩, ⟨[], true⟩], true, false, [⟨2, 2⟩]⟩

/-- The string aa. -/
def twoA : Fst := ⟨.ofList [⟨[(⟨2, 2⟩, 1)], false⟩, ⟨[(⟨2, 2⟩, 2)], false⟩, ⟨[], true⟩], true, false, [⟨2, 2⟩]⟩

theorem oneA_honest : oneA.Honest :=
  ⟨by decide +kernel, fun _ => deterministic_of_check (by decide +kernel) (by decide +kernel),
    (by intro h; cases h)⟩

theorem twoA_honest : twoA.Honest :=
  ⟨by decide +kernel, fun _ => deterministic_of_check (by decide +kernel) (by decide +kernel),
    (by intro h; cases h)⟩

/-- **C65, inserting freely, does not hold with the marks**: the result of inserting a freely into a is
still marked deterministic, though it is not.  The intersection with aa, which trusts the mark, then
accepts nothing, though both accept aa. -/
theorem C65_insert_violated :
    ∃ F G R I : Fst, F.Honest ∧ G.Honest ∧ F.freelyInsert ⟨2, 2⟩ = some R ∧ ¬ R.Honest ∧
      G.intersect R = some I ∧ G.Takes [⟨2, 2⟩, ⟨2, 2⟩] ∧ R.Takes [⟨2, 2⟩, ⟨2, 2⟩] ∧ ∀ w, ¬ I.Takes w := by
  obtain ⟨R, hR, _, _, ht⟩ := C65_insert_partial oneA_honest (l := ⟨2, 2⟩) (by decide)
  have hRe : (oneA.freelyInsert ⟨2, 2⟩).getD oneA = R := by rw [hR]; rfl
  have hI : (twoA.intersect ((oneA.freelyInsert ⟨2, 2⟩).getD oneA)).isSome = true := by decide +kernel
  have htwo : twoA.Takes [⟨2, 2⟩, ⟨2, 2⟩] :=
    .read (k' := 1) (by decide) (by decide +kernel)
      (.read (k' := 2) (by decide) (by decide +kernel) (.stop (by decide +kernel)))
  have hone : oneA.Takes [⟨2, 2⟩] := .read (k' := 1) (by decide) (by decide +kernel) (.stop (by decide +kernel))
  have hnone : ∀ w, ¬ ((twoA.intersect ((oneA.freelyInsert ⟨2, 2⟩).getD oneA)).getD oneA).Takes w :=
    not_takes_of_check (by decide +kernel) (by decide +kernel)
  have hR2 : R.Takes [⟨2, 2⟩, ⟨2, 2⟩] := (ht _).2 ⟨_, hone, .put (.keep .done)⟩
  have hIe : twoA.intersect R = some ((twoA.intersect ((oneA.freelyInsert ⟨2, 2⟩).getD oneA)).getD oneA) := by
    rw [some_getD hI, hRe]
  refine ⟨oneA, twoA, R, _, oneA_honest, twoA_honest, hR, ?_, hIe, htwo, hR2, hnone⟩
  intro hh
  obtain ⟨I', hI', _, _, ht'⟩ := C66_intersect twoA_honest hh
  rw [hIe] at hI'
  cases hI'
  exact hnone _ ((ht' _).2 ⟨htwo, hR2⟩)

/-- The empty string in two ways: an arc 0:0 to a final node, and a final root. -/
def emptyA : Fst := ⟨.ofList [⟨[(⟨0, 0⟩, 1)], false⟩, ⟨[], true⟩], false, false, []⟩

/-- The second way. -/
def emptyB : Fst := ⟨.ofList [⟨[], true⟩], false, false, []⟩

/-- **C65, replacing epsilon, is not an operation on what is accepted**: two transducers that accept just
the empty sequence give results of which only one accepts x. -/
theorem C65_replace_violated :
    ∃ F G R S : Fst, F.Honest ∧ G.Honest ∧ (∀ w, F.Takes w ↔ w = []) ∧ (∀ w, G.Takes w ↔ w = []) ∧
      F.replaceChar 0 5 = some R ∧ G.replaceChar 0 5 = some S ∧ R.Takes [⟨5, 5⟩] ∧ ¬ S.Takes [⟨5, 5⟩] := by
  have hR : (emptyA.replaceChar 0 5).isSome = true := by decide +kernel
  have hS : (emptyB.replaceChar 0 5).isSome = true := by decide +kernel
  have noarcs : ∀ {g : Graph} {n : Nat} {w : List Label}, (g.node n).arcs = [] → g.Takes n w → w = [] := by
    intro g n w hn h
    cases h with
    | stop _ => rfl
    | skip hs _ => unfold Graph.Step at hs; rw [hn] at hs; cases hs
    | read _ hs _ => unfold Graph.Step at hs; rw [hn] at hs; cases hs
  refine ⟨emptyA, emptyB, ((emptyA.replaceChar 0 5).getD emptyA), ((emptyB.replaceChar 0 5).getD emptyA),
    ⟨by decide +kernel, (by intro h; cases h), (by intro h; cases h)⟩,
    ⟨by decide +kernel, (by intro h; cases h), (by intro h; cases h)⟩, fun w => ⟨?_, ?_⟩, fun w => ⟨?_, ?_⟩,
    (some_getD hR).symm, (some_getD hS).symm, ?_, ?_⟩
  · intro h
    have harc : ∀ {l : Label} {m : Nat}, emptyA.graph.Step 0 l m → l = ⟨0, 0⟩ ∧ m = 1 := by
      intro l m hs
      have : (l, m) ∈ [((⟨0, 0⟩ : Label), 1)] := hs
      simpa using this
    cases h with
    | stop _ => rfl
    | skip hs h => rw [(harc hs).2] at h; exact noarcs (by decide +kernel) h
    | read hl hs _ => exact absurd (harc hs).1 hl
  · rintro rfl
    exact .skip (k' := 1) (by decide +kernel) (.stop (by decide +kernel))
  · exact fun h => noarcs (by decide +kernel) h
  · rintro rfl
    exact .stop (by decide +kernel)
  · exact .read (k' := 1) (by decide) (by decide +kernel) (.stop (by decide +kernel))
  · intro h
    have := noarcs (by decide +kernel) h
    cases this

end Hfst.Sfst
