import Verif.Spec.KillPaths
import Verif.Props.Reweight

/-!
# C96: hfst-kill-paths

The copying loop is that of hfst-reweight on the transducer without the transitions that are skipped.
-/
namespace Hfst.KillPaths
open Hfst.StdString Hfst.Basic
open Hfst.Reweight (Takes Walk)

/-- The same variables in the other tool. -/
def Copying.other (c : Copying) : Reweight.Copying := ⟨c.rep, c.rebuilt, c.count⟩

/-- Options that change no weight. -/
def same : Reweight.Options := {}

theorem reweight_same (w : Int) (io : Option (Sym × Sym)) : Reweight.reweight same w io = w := by
  unfold Reweight.reweight same
  split
  · rfl
  · cases io with
    | none => simp
    | some p => simp [Reweight.differs]

/-- Whether a transition is kept. -/
def kept (x : Sym) (a : Arc) : Bool := !(decide (a.inp = x) || decide (a.out = x))

/-- The transducer without the transitions that are skipped. -/
def without (x : Sym) (g : Graph) : Graph := { g with states := g.states.map fun l => l.filter (kept x) }

theorem copyFinal_other (x : Sym) (g : Graph) (s t : Nat) (rep : Graph) :
    copyFinal g s t rep = Reweight.copyFinal same (without x g) s t rep := by
  unfold copyFinal Reweight.copyFinal
  show _ = match g.final s with
    | none => rep
    | some w => rep.setFinal t (Reweight.reweight same w none)
  cases g.final s with
  | none => rfl
  | some w => simp only [reweight_same]

theorem visit_other (x : Sym) (g : Graph) (c : Copying) (s : Nat) :
    (visit g c s).other = Reweight.visit same (without x g) c.other s := by
  unfold visit Reweight.visit
  show _ = match mapGet c.rebuilt s with
    | some _ => c.other
    | none => _
  cases mapGet c.rebuilt s with
  | some _ => rfl
  | none => simp only [Copying.other, copyFinal_other x]

theorem copyArc_other (x : Sym) (g : Graph) (s : Nat) (c : Copying) (a : Arc) (h : kept x a = true) :
    (copyArc x g s c a).other = Reweight.copyArc same (without x g) s c.other a := by
  have h' : ¬ (a.inp = x ∨ a.out = x) := by simpa [kept] using h
  unfold copyArc Reweight.copyArc
  rw [if_neg h', ← visit_other, reweight_same]
  rfl

theorem foldl_other (x : Sym) (g : Graph) (s : Nat) (l : List Arc) (c : Copying) :
    (l.foldl (copyArc x g s) c).other = (l.filter (kept x)).foldl (Reweight.copyArc same (without x g) s) c.other := by
  induction l generalizing c with
  | nil => rfl
  | cons a l ih =>
    rw [List.foldl_cons, ih, List.filter_cons]
    by_cases h : kept x a = true
    · rw [if_pos h, List.foldl_cons, copyArc_other x g s c a h]
    · rw [if_neg h]
      have h' : a.inp = x ∨ a.out = x := by simpa [kept, Classical.or_iff_not_imp_left] using h
      unfold copyArc
      rw [if_pos h']

theorem copyStates_other (x : Sym) (g : Graph) (ls : List (List Arc)) (s : Nat) (c : Copying) :
    (copyStates x g s ls c).other =
      Reweight.copyStates same (without x g) s (ls.map fun l => l.filter (kept x)) c.other := by
  induction ls generalizing s c with
  | nil => rfl
  | cons l ls ih =>
    rw [copyStates, ih, List.map_cons, Reweight.copyStates, foldl_other, visit_other x]

theorem doKilling_eq (x : Sym) (g : Graph) : doKilling x g = Reweight.doReweight same (without x g) := by
  unfold doKilling Reweight.doReweight
  have h := copyStates_other x g g.states 0 ⟨copyFinal g 0 0 Graph.init, [(0, 0)], 1⟩
  have h' := congrArg Reweight.Copying.rep h
  rw [show (Copying.other ⟨copyFinal g 0 0 Graph.init, [(0, 0)], 1⟩) =
    ⟨Reweight.copyFinal same (without x g) 0 0 Graph.init, [(0, 0)], 1⟩ from by
      rw [← copyFinal_other x g]; rfl] at h'
  exact h'

theorem arcs_without (x : Sym) (g : Graph) (s : Nat) (a : Arc) :
    a ∈ (without x g).arcs s ↔ a ∈ g.arcs s ∧ a.inp ≠ x ∧ a.out ≠ x := by
  unfold Graph.arcs without
  simp only [List.getElem?_map]
  cases g.states[s]? with
  | none => simp
  | some l => simp [kept, List.mem_filter]

theorem walk_without (x : Sym) (g : Graph) (s q : Nat) (l : List (Sym × Sym × Int)) :
    Walk (without x g) s l q ↔ Walk g s l q ∧ Free x l := by
  constructor
  · intro h
    induction h with
    | nil s => exact ⟨.nil s, by intro p hp; cases hp⟩
    | cons ha _ ih =>
      rw [arcs_without] at ha
      refine ⟨.cons ha.1 ih.1, ?_⟩
      intro p hp
      rcases List.mem_cons.1 hp with rfl | hp
      · exact ha.2
      · exact ih.2 p hp
  · rintro ⟨h, hf⟩
    induction h with
    | nil s => exact .nil s
    | cons ha _ ih =>
      refine .cons ((arcs_without _ _ _ _).2 ⟨ha, hf _ List.mem_cons_self⟩) (ih fun p hp => hf p (List.mem_cons_of_mem _ hp))

theorem newArc_same (i u : Sym) (w : Int) : Reweight.newArc same i u w = w := by
  unfold Reweight.newArc
  split
  · simp [same]
  · rfl

theorem newEnd_same (w : Int) : Reweight.newEnd same w = w := by
  unfold Reweight.newEnd
  split
  · simp [same]
  · rfl

/-- **C96, one symbol**: the accepting paths of the result are exactly those of the transducer that have the symbol on no transition,
with all their weights; and the result is a transducer whose transitions lead to its states. -/
theorem C96_kill (x : Sym) (g : Graph) :
    (∀ l f, Takes (doKilling x g) l f ↔ Takes g l f ∧ Free x l) ∧ WF (doKilling x g) := by
  rw [doKilling_eq]
  obtain ⟨h1, h2⟩ := Reweight.C93_reweight same (without x g)
  refine ⟨fun l f => ?_, h2⟩
  rw [h1]
  simp only [newArc_same, newEnd_same]
  constructor
  · rintro ⟨l0, f0, ⟨q, hw, hf⟩, rfl, rfl⟩
    have e : l0.map (fun p => (p.1, p.2.1, p.2.2)) = l0 := by simp
    rw [e]
    rw [walk_without] at hw
    exact ⟨⟨q, hw.1, hf⟩, hw.2⟩
  · rintro ⟨⟨q, hw, hf⟩, hx⟩
    exact ⟨l, f, ⟨q, (walk_without _ _ _ _ _).2 ⟨hw, hx⟩, hf⟩, by simp, rfl⟩

/-! ## Files of symbols -/

theorem takeWhile_newline (t : Str) (h : '\n' ∉ t) (r : Str) (hr : r = [] ∨ r = ['\n']) :
    (t ++ r).takeWhile (· ≠ '\n') = t := by
  induction t with
  | nil => rcases hr with rfl | rfl <;> rfl
  | cons c t ih =>
    have hc : c ≠ '\n' := fun e => h (e ▸ List.mem_cons_self)
    rw [List.cons_append, List.takeWhile_cons]
    simp only [hc, ne_eq, not_false_eq_true, decide_true, if_true]
    rw [ih fun h' => h (List.mem_cons_of_mem _ h')]

theorem rule_line (l : Str) (hl : FromFile [l]) (x : Sym) : (isRule l = true ∧ ruleSymbol l = x) ↔ Asks [l] x := by
  obtain ⟨t, ht, hlt⟩ := hl l List.mem_cons_self
  have e : ∃ r, (r = [] ∨ r = ['\n']) ∧ l = t ++ r := by
    rcases hlt with h | h
    · exact ⟨[], Or.inl rfl, by simp [h.1]⟩
    · exact ⟨['\n'], Or.inr rfl, h⟩
  obtain ⟨r, hr, e⟩ := e
  have hsym : ruleSymbol l = t := by unfold ruleSymbol; rw [e]; exact takeWhile_newline t ht r hr
  have hrule : isRule l = true ↔ t ≠ [] ∧ ∀ rest, t ≠ '#' :: rest := by
    cases t with
    | nil =>
      rcases hlt with h | h
      · exact absurd rfl h.2
      · rw [h]; simp [isRule]
    | cons c t =>
      have hc : c ≠ '\n' := fun h => ht (h ▸ List.mem_cons_self)
      rw [e, List.cons_append]
      unfold isRule
      split
      · rename_i heq; simp only [List.cons.injEq] at heq; exact absurd heq.1 hc
      · rename_i heq
        simp only [List.cons.injEq] at heq
        simp [heq.1]
      · rename_i h1 h2
        simp only [ne_eq, reduceCtorEq, not_false_eq_true, List.cons.injEq, not_and, true_and, true_iff]
        intro rest hc'
        exact absurd (by rw [hc']) (h2 (t ++ r))
  unfold Asks
  rw [hrule, hsym]
  constructor
  · rintro ⟨⟨h1, h2⟩, rfl⟩
    refine ⟨l, List.mem_cons_self, h1, h2, ht, ?_⟩
    rcases hr with rfl | rfl
    · exact Or.inl (by simpa using e)
    · exact Or.inr e
  · rintro ⟨l', hl', h1, h2, h3, h4⟩
    have : l' = l := by simpa using hl'
    subst this
    have hx : t = x := by
      rw [← hsym]
      unfold ruleSymbol
      rcases h4 with h4 | h4
      · have := takeWhile_newline x h3 [] (Or.inl rfl)
        rw [List.append_nil] at this
        rw [h4]; exact this
      · rw [h4]; exact takeWhile_newline x h3 _ (Or.inr rfl)
    subst hx
    exact ⟨⟨h1, h2⟩, rfl⟩

theorem asks_cons (l : Str) (ls : List Str) (x : Sym) : Asks (l :: ls) x ↔ Asks [l] x ∨ Asks ls x := by
  unfold Asks
  simp only [List.mem_cons, List.not_mem_nil, or_false, exists_eq_left]
  constructor
  · rintro ⟨y, rfl | hy, h⟩
    · exact Or.inl h
    · exact Or.inr ⟨y, hy, h⟩
  · rintro (h | ⟨y, hy, h⟩)
    · exact ⟨l, Or.inl rfl, h⟩
    · exact ⟨y, Or.inr hy, h⟩

theorem rulesLoop_takes (lines : List Str) (hl : FromFile lines) (g : Graph) (l : List (Sym × Sym × Int)) (f : Int) :
    Takes (rulesLoop lines g) l f ↔ Takes g l f ∧ ∀ x, Asks lines x → Free x l := by
  induction lines generalizing g with
  | nil =>
    simp only [rulesLoop]
    constructor
    · intro h; exact ⟨h, fun x ⟨y, hy, _⟩ => by cases hy⟩
    · exact And.left
  | cons y ys ih =>
    have hy : FromFile [y] := by
      intro z hz
      rw [List.mem_singleton] at hz
      exact hl z (hz ▸ List.mem_cons_self)
    have hys : FromFile ys := fun z hz => hl z (List.mem_cons_of_mem _ hz)
    unfold rulesLoop
    have key := rule_line y hy
    split
    · rename_i hr
      rw [ih hys, (C96_kill _ g).1]
      constructor
      · rintro ⟨⟨h1, h2⟩, h3⟩
        refine ⟨h1, fun x hx => ?_⟩
        rcases (asks_cons y ys x).1 hx with hx | hx
        · rw [← ((key x).2 hx).2]; exact h2
        · exact h3 x hx
      · rintro ⟨h1, h2⟩
        exact ⟨⟨h1, h2 _ ((asks_cons _ _ _).2 (Or.inl ((key _).1 ⟨hr, rfl⟩)))⟩,
          fun x hx => h2 x ((asks_cons _ _ _).2 (Or.inr hx))⟩
    · rename_i hr
      rw [ih hys]
      constructor
      · rintro ⟨h1, h3⟩
        refine ⟨h1, fun x hx => ?_⟩
        rcases (asks_cons y ys x).1 hx with hx | hx
        · exact absurd ((key x).2 hx).1 hr
        · exact h3 x hx
      · rintro ⟨h1, h2⟩
        exact ⟨h1, fun x hx => h2 x ((asks_cons _ _ _).2 (Or.inr hx))⟩

theorem any_asks (lines : List Str) (hl : FromFile lines) : lines.any isRule = true ↔ ∃ x, Asks lines x := by
  induction lines with
  | nil => simp [Asks]
  | cons y ys ih =>
    have hy : FromFile [y] := by
      intro z hz
      rw [List.mem_singleton] at hz
      exact hl z (hz ▸ List.mem_cons_self)
    rw [List.any_cons, Bool.or_eq_true, ih fun z hz => hl z (List.mem_cons_of_mem _ hz)]
    constructor
    · rintro (h | ⟨x, h⟩)
      · exact ⟨ruleSymbol y, (asks_cons _ _ _).2 (Or.inl ((rule_line y hy _).1 ⟨h, rfl⟩))⟩
      · exact ⟨x, (asks_cons _ _ _).2 (Or.inr h)⟩
    · rintro ⟨x, h⟩
      rcases (asks_cons _ _ _).1 h with h | h
      · exact Or.inl ((rule_line y hy x).2 h).1
      · exact Or.inr ⟨x, h⟩

theorem rulesStream_ok (removeEpsilons : Graph → Graph) (lines : List Str) (given : Bool)
    (h : given = false ∨ lines.any isRule = true) (gs : List Graph) :
    rulesStream removeEpsilons lines given false gs = ⟨gs.map fun g => removeEpsilons (rulesLoop lines g), .success⟩ := by
  induction gs generalizing given with
  | nil => rfl
  | cons g gs ih =>
    unfold rulesStream
    have hf : (given && !lines.any isRule) = false := by
      rcases h with h | h <;> simp [h]
    rw [hf, if_neg (by simp), ih]
    · rfl
    · cases ha : lines.any isRule with
      | true => exact Or.inr rfl
      | false =>
        rcases h with h | h
        · left; simp [h]
        · rw [ha] at h; cases h

/-- **C96, the tool (partial)**: with -S, or with -T alone, every transducer of the archive is written in its order, after epsilons are
removed from the transducer that has exactly the accepting paths without the symbols asked for; the weights stay.  Missing: both options
together (`C96_both_violated`, `C96_freed_violated`), and what the identity symbol stands for afterwards (`C96_identity_violated`). -/
theorem C96_stream_partial (removeEpsilons : Graph → Graph) (gs : List Graph) :
    (∀ x, ∃ change : Graph → Graph,
      killStream removeEpsilons { symbol := some x } gs = ⟨gs.map fun g => removeEpsilons (change g), .success⟩ ∧
      ∀ g l f, Takes (change g) l f ↔ Takes g l f ∧ Free x l) ∧
    (∀ lines, FromFile lines → ∃ change : Graph → Graph,
      killStream removeEpsilons { file := some lines } gs = ⟨gs.map fun g => removeEpsilons (change g), .success⟩ ∧
      ∀ g l f, Takes (change g) l f ↔ Takes g l f ∧ ∀ x, Asks lines x → Free x l) :=
  ⟨fun x => ⟨doKilling x, rfl, fun g => (C96_kill x g).1⟩,
    fun lines hl => ⟨rulesLoop lines, rulesStream_ok removeEpsilons lines false (Or.inl rfl) gs, rulesLoop_takes lines hl⟩⟩

/-- **C96, both options (violated)**: with a file that asks for some symbol, the symbol of -S is ignored: what is written is what is
written without -S. -/
theorem C96_both_violated (removeEpsilons : Graph → Graph) (x y : Sym) (lines : List Str) (hl : FromFile lines) (h : Asks lines y)
    (gs : List Graph) :
    killStream removeEpsilons { symbol := some x, file := some lines } gs = killStream removeEpsilons { file := some lines } gs := by
  show rulesStream _ _ true false gs = rulesStream _ _ false false gs
  rw [rulesStream_ok _ _ _ (Or.inr ((any_asks lines hl).2 ⟨y, h⟩)), rulesStream_ok _ _ _ (Or.inl rfl)]

/-- **C96, both options (violated)**: with -S and a file that asks for nothing, the memory of the symbol is freed again for the second
transducer. -/
theorem C96_freed_violated (removeEpsilons : Graph → Graph) (x : Sym) (lines : List Str) (hl : FromFile lines)
    (h : ∀ y, ¬ Asks lines y) (g g' : Graph) (gs : List Graph) :
    ∃ written, killStream removeEpsilons { symbol := some x, file := some lines } (g :: g' :: gs) = ⟨written, .undefined⟩ := by
  have ha : lines.any isRule = false := by
    cases e : lines.any isRule with
    | false => rfl
    | true => obtain ⟨y, hy⟩ := (any_asks lines hl).1 e; exact absurd hy (h y)
  refine ⟨[removeEpsilons (rulesLoop lines g)], ?_⟩
  show rulesStream _ _ true false _ = _
  unfold rulesStream
  rw [if_neg (by simp), ha]
  unfold rulesStream
  rfl

end Hfst.KillPaths
