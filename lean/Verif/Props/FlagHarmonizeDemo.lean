import Verif.Props.FlagConjunct

/-!
# C92: subtraction, the alphabet, and examples
-/
namespace Hfst.FlagHarm
open Hfst.Basic Hfst.Trans Hfst.Basic.Graph

/-! ## Subtraction -/

theorem ordered_firsts : ∀ {l : List (Sym × Sym)}, (∀ p ∈ l, ¬ FlagOf "_2".toList p.1) → OrderedFrom False l
  | [], _ => trivial
  | p :: l, h => by
    refine ⟨False.elim, ?_⟩
    have : (Flags.isDiacritic p.1 = true ∧ (False ∨ FlagOf "_2".toList p.1)) = False := by
      apply eq_false
      rintro ⟨_, h' | h'⟩
      · exact h'
      · exact h p (List.mem_cons_self ..) h'
    rw [this]
    exact ordered_firsts fun q hq => h q (List.mem_cons_of_mem _ hq)

/-- hfst-subtract -F takes nothing away, if both transducers have flags and the second has flags on all its paths: the flags of the
second transducer are only optional in the first. -/
theorem subtract_nothing (B : Backend) (hB : B.Ok) (removeIllegal : Graph → Graph) (hri : RemovesIllegal removeIllegal)
    (g h : Graph) (hg : Proper g) (hh : Proper h) (vg : Valued g) (fg : hasFlags g = true) (fh : hasFlags h = true)
    (hall : ∀ l w, Means h l w → ∃ p ∈ l, Flags.isDiacritic p.1 = true) :
    ∃ r, subtractStep B removeIllegal g h = .ok r ∧ ∀ p w, MeansObeying g p w → MeansObeying r p w := by
  have ag := hg.usual.good.alpha
  have ah := hh.usual.good.alpha
  have u1 := usual_rename no_dot_1 hg.usual
  have u2 := usual_rename no_dot_2 hh.usual
  have p1 := plain_rename no_dot_1 ag hg.plain
  have p2 := plain_rename no_dot_2 ah hh.plain
  have uI := usual_insertMissing (h := rename "_2".toList h) u1
  have uJ := usual_insertMissing (h := insertMissing (rename "_1".toList g) (rename "_2".toList h)) u2
  have ur := hri.usual _ uI
  have pr := hri.plain _ uI (plain_insertMissing u1.good.wf p1)
  have pJ := plain_insertMissing (h := insertMissing (rename "_1".toList g) (rename "_2".toList h)) u2.good.wf p2
  obtain ⟨r, he, _, _, hm⟩ := C73_subtract hB _ _ ur uJ (pr.same pJ ur.good uJ.good)
  refine ⟨r, ?_, fun p w hp => ?_⟩
  · unfold subtractStep harmonizeFlags
    simp only [fg, fh, Bool.and_self, if_true]
    exact he
  · obtain ⟨l, hl, ho, hw⟩ := (C92_rename_meaning _ no_dot_1 g hg p w).2 hp
    have hfirst : ∀ q ∈ l, Flags.isDiacritic q.1 = true → FlagOf "_1".toList q.1 := by
      intro q hq hd
      obtain ⟨s, a, haa, e⟩ := flag_of_means hl hq hd
      exact flag_in_rename no_dot_1 (e ▸ ((alphaOK_rename _ g).arcs s a haa).1) hd
    have hno2 : ∀ q ∈ l, ¬ FlagOf "_2".toList q.1 := fun q hq h2 => flagOf_apart (hfirst q hq h2.isDiacritic) h2
    refine ⟨l, (hm l w).2 ⟨?_, fun v hv => ?_⟩, ho, hw⟩
    · refine hri.keep _ _ _ uI ((means_insertMissing u1.good.wf u1.good.alpha).2 ?_) (ordered_firsts hno2) ?_
      · rw [List.filter_eq_self.2]
        · exact hl
        · intro q hq
          cases hM : isPairOf (missingFlags (rename "_1".toList g) (rename "_2".toList h)) q with
          | false => rfl
          | true =>
            obtain ⟨h1, h2, _⟩ := mem_missingFlags.1 (of_decide_eq_true hM).2
            exact absurd (flag_in_rename no_dot_2 h1 h2) (hno2 q hq)
      · intro q hq hd
        obtain ⟨s, a, haa, e⟩ := flag_of_means hl hq hd
        rw [← e] at hd ⊢
        exact valued_rename no_dot_1 vg s a haa hd
    · rw [means_insertMissing u2.good.wf u2.good.alpha] at hv
      obtain ⟨k, hk, e⟩ := (means_rename no_dot_2 hh.usual.good.wf ah hh.used).1 hv
      obtain ⟨q, hq, hd⟩ := hall k v hk
      have hmem : renamePair "_2".toList q ∈ l := by
        have : renamePair "_2".toList q ∈ k.map (renamePair "_2".toList) := List.mem_map.2 ⟨q, hq, rfl⟩
        rw [← e] at this
        exact (List.mem_filter.1 this).1
      exact hno2 _ hmem (flagOf_rename no_dot_2 hd)

/-! ## Examples -/

/-- A flag that sets the feature, and one that asks for the value. -/
def setX : Sym := "@P.F.x@".toList
def askX : Sym := "@R.F.x@".toList
def setY : Sym := "@P.F.y@".toList
def askY : Sym := "@R.F.y@".toList
def sa : Sym := ['a']
def sb : Sym := ['b']

theorem flags_here : ∀ x ∈ [setX, askX, setY, askY], Flags.isDiacritic x = true ∧ Flags.hasValue x = true := by decide +kernel

theorem itself_a : Itself sa := ⟨⟨by decide, by decide, by decide, by decide⟩, by decide +kernel⟩
theorem itself_b : Itself sb := ⟨⟨by decide, by decide, by decide, by decide⟩, by decide +kernel⟩

theorem proper_three {x y z : Sym} (hx : Itself x) (hy : Itself y) (hz : Itself z) : Proper (three x y z) := by
  refine ⟨(three_usual hx hy hz).1, (three_usual hx hy hz).2, ?_, ?_⟩
  · intro s a ha _
    rcases three_arcs.mp ha with ⟨_, rfl⟩ | ⟨_, rfl⟩ | ⟨_, rfl⟩ <;> rfl
  · intro t ht
    have hal : (three x y z).alphabet = [epsilon, unknown, identity, x, y, z] := rfl
    rw [hal] at ht
    simp only [List.mem_cons, List.not_mem_nil, or_false] at ht
    rcases ht with h | h | h | rfl | rfl | rfl
    · exact Or.inl h
    · exact Or.inr (Or.inl h)
    · exact Or.inr (Or.inr (Or.inl h))
    · exact Or.inr (Or.inr (Or.inr ⟨0, _, three_arcs.mpr (Or.inl ⟨rfl, rfl⟩), Or.inl rfl⟩))
    · exact Or.inr (Or.inr (Or.inr ⟨1, _, three_arcs.mpr (Or.inr (Or.inl ⟨rfl, rfl⟩)), Or.inl rfl⟩))
    · exact Or.inr (Or.inr (Or.inr ⟨2, _, three_arcs.mpr (Or.inr (Or.inr ⟨rfl, rfl⟩)), Or.inl rfl⟩))

theorem valued_three {x y z : Sym} (h : ∀ t ∈ [x, y, z], Flags.isDiacritic t = true → Flags.hasValue t = true) :
    Valued (three x y z) := by
  intro s a ha hd
  rcases three_arcs.mp ha with ⟨_, rfl⟩ | ⟨_, rfl⟩ | ⟨_, rfl⟩
  · exact h x (by simp) hd
  · exact h y (by simp) hd
  · exact h z (by simp) hd

/-- `a` between a flag that sets `F` to `x` and one that asks for it. -/
def exX : Graph := three setX sa askX
/-- `a` between a flag that sets `F` to `y` and one that asks for it. -/
def exY : Graph := three setY sa askY

theorem flag_itself {x : Sym} (hx : x ∈ [setX, askX, setY, askY]) : Itself x := itself_flag (flags_here x hx).1

theorem exX_proper : Proper exX := proper_three (flag_itself (by simp)) itself_a (flag_itself (by simp))
theorem exY_proper : Proper exY := proper_three (flag_itself (by simp)) itself_a (flag_itself (by simp))
theorem exX_valued : Valued exX := valued_three (by decide +kernel)
theorem exY_valued : Valued exY := valued_three (by decide +kernel)

theorem reads : readFlag setX = some ('P', "F".toList, "x".toList) ∧ readFlag askX = some ('R', "F".toList, "x".toList) ∧
    readFlag setY = some ('P', "F".toList, "y".toList) ∧ readFlag askY = some ('R', "F".toList, "y".toList) ∧
    readFlag sa = none ∧ readFlag sb = none := by decide +kernel

theorem obeys_X {y : Sym} (hy : readFlag y = none) : Obeys [setX, y, askX] := by
  simp [Obeys, ObeysFrom, reads.1, reads.2.1, hy, Lets, Held.next]

theorem obeys_Y {y : Sym} (hy : readFlag y = none) : Obeys [setY, y, askY] := by
  simp [Obeys, ObeysFrom, reads.2.2.1, reads.2.2.2.1, hy, Lets, Held.next]

theorem exX_means : MeansObeying exX [(sa, sa)] 0 :=
  ⟨_, (three_means (flag_itself (by simp)) itself_a (flag_itself (by simp))).mpr ⟨rfl, Int.le_refl _⟩,
    obeys_X reads.2.2.2.2.1, by decide +kernel⟩

theorem exY_means : MeansObeying exY [(sa, sa)] 0 :=
  ⟨_, (three_means (flag_itself (by simp)) itself_a (flag_itself (by simp))).mpr ⟨rfl, Int.le_refl _⟩,
    obeys_Y reads.2.2.2.2.1, by decide +kernel⟩

theorem id_removes : RemovesIllegal id :=
  ⟨fun _ h => h, fun _ _ h => h, fun _ _ _ _ h => h, fun _ _ _ _ h _ _ => h⟩

/-- The conjunction of `exX` and `exY` accepts `a`, although the flags of the two differ. -/
example : ∃ r, conjunctStep reference id exX exY = .ok r ∧ MeansObeying r [(sa, sa)] 0 := by
  obtain ⟨r, he, hr⟩ := C92_conjunction reference reference_ok id id_removes exX exY exX_proper exY_proper exX_valued exY_valued
  exact ⟨r, he, (hr _ _).2 ⟨0, 0, exX_means, exY_means, Int.le_refl _⟩⟩

/-- The concatenation of `exX` and `exY` accepts `aa`. -/
example : ∃ r second, concatenateStep (fun a b => concatenate reference a b) exX exY = some (.ok r, second) ∧
    MeansObeying r [(sa, sa), (sa, sa)] 0 := by
  obtain ⟨r, second, he, _, hr⟩ := C92_concatenation reference reference_ok exX exY exX_proper exY_proper
  exact ⟨r, second, he, (hr _ _).2 ⟨_, 0, _, 0, exX_means, exY_means, rfl, Int.le_refl _⟩⟩

example : renameSym "_1".toList setX = "@P.F_1.x@".toList ∧ renameSym "_1".toList "@C.F@".toList = "@C.F_1@".toList ∧
    renameSym "_1".toList sa = sa := by decide +kernel

example : Means (rename "_1".toList exX)
    [("@P.F_1.x@".toList, "@P.F_1.x@".toList), (sa, sa), ("@R.F_1.x@".toList, "@R.F_1.x@".toList)] 0 :=
  ((C92_rename "_1".toList no_dot_1 exX exX_proper).1 _ _).2
    ⟨_, (three_means (flag_itself (by simp)) itself_a (flag_itself (by simp))).mpr ⟨rfl, Int.le_refl _⟩, by decide +kernel⟩

/-- **C92 is violated by hfst-subtract -F** (the tool warns that the result may be incorrect if the second transducer has flags): a
transducer minus itself still accepts what it accepted. -/
theorem C92_subtract_violated (B : Backend) (hB : B.Ok) (removeIllegal : Graph → Graph) (hri : RemovesIllegal removeIllegal) :
    ∃ g r p, Proper g ∧ Valued g ∧ subtractStep B removeIllegal g g = .ok r ∧ MeansObeying g p 0 ∧ MeansObeying r p 0 := by
  have hf : hasFlags exX = true := List.any_eq_true.2 ⟨setX, by simp [exX, three], (flags_here setX (by simp)).1⟩
  obtain ⟨r, he, hr⟩ := subtract_nothing B hB removeIllegal hri exX exX exX_proper exX_proper exX_valued hf hf (by
    intro l w hl
    rw [((three_means (flag_itself (by simp)) itself_a (flag_itself (by simp))).mp hl).1]
    exact ⟨_, List.mem_cons_self .., (flags_here setX (by simp)).1⟩)
  exact ⟨exX, r, _, exX_proper, exX_valued, he, exX_means, hr _ _ exX_means⟩

/-! ## The alphabet -/

/-- Any symbol except those of the alphabet, between two flags. -/
def anyBetween (al : List Sym) : Graph :=
  { states := [[⟨1, setX, setX, 0⟩], [⟨2, identity, identity, 0⟩], [⟨3, askX, askX, 0⟩], []], finals := [(3, 0)],
    alphabet := [epsilon, unknown, identity, setX, askX] ++ al }

theorem anyBetween_arcs {al : List Sym} {s : Nat} {a : Arc} : a ∈ (anyBetween al).arcs s ↔
    (s = 0 ∧ a = ⟨1, setX, setX, 0⟩) ∨ (s = 1 ∧ a = ⟨2, identity, identity, 0⟩) ∨ (s = 2 ∧ a = ⟨3, askX, askX, 0⟩) := by
  match s with
  | 0 => simp [anyBetween, Graph.arcs]
  | 1 => simp [anyBetween, Graph.arcs]
  | 2 => simp [anyBetween, Graph.arcs]
  | 3 => simp [anyBetween, Graph.arcs]
  | n + 4 => simp [anyBetween, Graph.arcs]

theorem anyBetween_final {al : List Sym} {s : Nat} {f : Int} : (anyBetween al).final s = some f ↔ s = 3 ∧ f = 0 := by
  unfold anyBetween Graph.final
  by_cases h : s = 3
  · subst h
    simp [mapGet, eq_comm]
  · simp [mapGet, h, Ne.symm h]

theorem anyBetween_usual {al : List Sym} (hal : ∀ x ∈ al, Itself x) : Usual (anyBetween al) ∧ Plain (anyBetween al) ∧
    TwoSided (anyBetween al) ∧ Valued (anyBetween al) := by
  have h1 : Itself setX := flag_itself (by simp)
  have h2 : Itself askX := flag_itself (by simp)
  have e : (anyBetween al).alphabet = [epsilon, unknown, identity, setX, askX] ++ al := rfl
  refine ⟨⟨⟨⟨by simp [anyBetween], ?_, ?_⟩, ⟨?_, by simp [e], by simp [e], by simp [e]⟩, by unfold FinalMap anyBetween; simp⟩, ?_, ?_⟩,
    ?_, ?_, ?_⟩
  · intro s a ha
    rcases anyBetween_arcs.mp ha with ⟨_, rfl⟩ | ⟨_, rfl⟩ | ⟨_, rfl⟩ <;> simp [anyBetween]
  · intro s w h
    rw [(anyBetween_final.mp h).1]; simp [anyBetween]
  · intro s a ha
    rcases anyBetween_arcs.mp ha with ⟨_, rfl⟩ | ⟨_, rfl⟩ | ⟨_, rfl⟩ <;> simp [e]
  · intro s a ha
    rcases anyBetween_arcs.mp ha with ⟨_, rfl⟩ | ⟨_, rfl⟩ | ⟨_, rfl⟩ <;> rfl
  · rw [e, List.mem_append]
    rintro (h | h)
    · exact absurd h (by decide +kernel)
    · exact (hal _ h).1.2.2.2 rfl
  · intro t ht hm
    rw [e] at hm
    simp only [List.mem_append, List.mem_cons, List.not_mem_nil, or_false] at hm
    rcases hm with (h | h | h | rfl | rfl) | h
    · exact .inl h
    · exact .inr (.inl h)
    · exact .inr (.inr h)
    · rw [h1.2] at ht; cases ht
    · rw [h2.2] at ht; cases ht
    · rw [(hal t h).2] at ht; cases ht
  · intro s a ha _
    rcases anyBetween_arcs.mp ha with ⟨_, rfl⟩ | ⟨_, rfl⟩ | ⟨_, rfl⟩ <;> rfl
  · intro s a ha hd
    rcases anyBetween_arcs.mp ha with ⟨_, rfl⟩ | ⟨_, rfl⟩ | ⟨_, rfl⟩
    · exact (flags_here setX (by simp)).2
    · exact absurd hd (by decide +kernel)
    · exact (flags_here askX (by simp)).2

theorem anyBetween_proper : Proper (anyBetween []) := by
  have h := anyBetween_usual (al := []) (by simp)
  refine ⟨h.1, h.2.1, h.2.2.1, ?_⟩
  intro t ht
  have e : (anyBetween []).alphabet = [epsilon, unknown, identity, setX, askX] := rfl
  rw [e] at ht
  simp only [List.mem_cons, List.not_mem_nil, or_false] at ht
  rcases ht with h | h | h | rfl | rfl
  · exact Or.inl h
  · exact Or.inr (Or.inl h)
  · exact Or.inr (Or.inr (Or.inl h))
  · exact Or.inr (Or.inr (Or.inr ⟨0, _, anyBetween_arcs.mpr (Or.inl ⟨rfl, rfl⟩), Or.inl rfl⟩))
  · exact Or.inr (Or.inr (Or.inr ⟨2, _, anyBetween_arcs.mpr (Or.inr (Or.inr ⟨rfl, rfl⟩)), Or.inl rfl⟩))

theorem anyBetween_b : MeansObeying (anyBetween []) [(sb, sb)] 0 := by
  refine ⟨[(setX, setX), (sb, sb), (askX, askX)],
    ⟨[(setX, setX), (sb, sb), (askX, askX)], 0, ⟨3, 0, 0, ?_, anyBetween_final.mpr ⟨rfl, rfl⟩, rfl⟩, ?_, Int.le_refl _⟩,
    obeys_X reads.2.2.2.2.2, by decide +kernel⟩
  · refine .cons (a := ⟨1, setX, setX, 0⟩) (w := 0) (anyBetween_arcs.mpr (Or.inl ⟨rfl, rfl⟩))
      (.itself (by decide) (by decide) (by decide) (by decide)) ?_
    refine .cons (a := ⟨2, identity, identity, 0⟩) (w := 0) (anyBetween_arcs.mpr (Or.inr (Or.inl ⟨rfl, rfl⟩)))
      (.identity rfl rfl ⟨⟨by decide, by decide, by decide, by decide +kernel, by decide +kernel⟩, by decide⟩) ?_
    exact .cons (a := ⟨3, askX, askX, 0⟩) (w := 0) (anyBetween_arcs.mpr (Or.inr (Or.inr ⟨rfl, rfl⟩)))
      (.itself (by decide) (by decide) (by decide) (by decide)) (.nil 3)
  · decide +kernel

theorem anyBetween_not_b (w : Int) : ¬ MeansObeying (anyBetween [sb]) [(sb, sb)] w := by
  rintro ⟨l, hl, _, hp⟩
  have hb : (sb, sb) ∈ l := by
    have : (sb, sb) ∈ withoutFlags l := by rw [hp]; exact List.mem_cons_self ..
    exact (List.mem_filter.1 this).1
  obtain ⟨s, a, ha, hst⟩ := mem_means hl _ hb
  have key : ∀ x : Sym, x = sb → Outside (anyBetween [sb]).alphabet x → False := by
    rintro x rfl ho
    exact ho.2 (by simp [anyBetween])
  generalize hq : (sb, sb) = q at hst
  cases hst with
  | itself h1 h2 h3 h4 =>
    have hi := congrArg Prod.fst hq
    simp only at hi
    rcases anyBetween_arcs.mp ha with ⟨_, rfl⟩ | ⟨_, rfl⟩ | ⟨_, rfl⟩
    · exact absurd hi (by decide)
    · exact h2 rfl
    · exact absurd hi (by decide)
  | identity _ _ ho => exact key _ (congrArg Prod.fst hq).symm ho
  | input _ _ _ ho => exact key _ (congrArg Prod.fst hq).symm ho
  | output _ _ _ ho => exact key _ (congrArg Prod.snd hq).symm ho
  | both _ _ ho => exact key _ (congrArg Prod.fst hq).symm ho

/-- **C92 is violated for symbols that are in the alphabet only**: renaming makes a new transducer with the symbols of the transitions
only.  Here the first transducer accepts any symbol except `b`; after harmonization its conjunction with a transducer that accepts
`b` accepts `b`. -/
theorem C92_alphabet_violated (B : Backend) (hB : B.Ok) (removeIllegal : Graph → Graph) (hri : RemovesIllegal removeIllegal) :
    ∃ g h r b, Usual g ∧ Plain g ∧ TwoSided g ∧ Valued g ∧ Proper h ∧ Valued h ∧
      conjunctStep B removeIllegal g h = .ok r ∧ MeansObeying r [(b, b)] 0 ∧ ∀ w, ¬ MeansObeying g [(b, b)] w := by
  have hb := anyBetween_usual (al := [sb]) (by intro x hx; rw [List.mem_singleton.1 hx]; exact itself_b)
  have h0 := anyBetween_usual (al := []) (by simp)
  have hp : Proper (three setY sb askY) := proper_three (flag_itself (by simp)) itself_b (flag_itself (by simp))
  have hv : Valued (three setY sb askY) := valued_three (by decide +kernel)
  obtain ⟨r, he, hr⟩ := C92_conjunction B hB removeIllegal hri (anyBetween []) (three setY sb askY) anyBetween_proper hp h0.2.2.2 hv
  have hm : MeansObeying (three setY sb askY) [(sb, sb)] 0 :=
    ⟨_, (three_means (flag_itself (by simp)) itself_b (flag_itself (by simp))).mpr ⟨rfl, Int.le_refl _⟩,
      obeys_Y reads.2.2.2.2.2, by decide +kernel⟩
  refine ⟨anyBetween [sb], three setY sb askY, r, sb, hb.1, hb.2.1, hb.2.2.1, hb.2.2.2, hp, hv, ?_,
    (hr _ _).2 ⟨0, 0, anyBetween_b, hm, Int.le_refl _⟩, anyBetween_not_b⟩
  rw [← he]
  have f1 : hasFlags (anyBetween [sb]) = true :=
    List.any_eq_true.2 ⟨setX, by simp [anyBetween], (flags_here setX (by simp)).1⟩
  have f0 : hasFlags (anyBetween []) = true :=
    List.any_eq_true.2 ⟨setX, by simp [anyBetween], (flags_here setX (by simp)).1⟩
  have f2 : hasFlags (three setY sb askY) = true :=
    List.any_eq_true.2 ⟨setY, by simp [three], (flags_here setY (by simp)).1⟩
  have er : rename "_1".toList (anyBetween [sb]) = rename "_1".toList (anyBetween []) := rfl
  unfold conjunctStep harmonizeFlags
  simp only [f0, f1, f2, Bool.or_self, Bool.and_self, if_true, er]

end Hfst.FlagHarm
