import Verif.Props.PmatchRuns
import Verif.Props.PmatchRun

/-!
# C64: matching takes the longest matches from the left
-/
namespace Hfst.Pmatch
open Hfst.Basic Hfst.Ol

/-! ## The best matches -/

/-- In locate mode: of the matches `L` the longest were kept. -/
structure Grabbed (o : Out) (L : List Hit) : Prop where
  none : L = [] → o.found = []
  some : L ≠ [] → o.found ≠ []
  longest : ∀ h ∈ L, h.1 ≤ o.pos
  exact : o.found ≠ [] → ∀ f, f ∈ o.found ↔ (o.pos, f) ∈ L

theorem grabbed_note {o : Out} {L : List Hit} (h : Grabbed o L) (x : Hit) : Grabbed (o.note true x) (L ++ [x]) := by
  unfold Out.note
  rw [if_pos rfl]
  by_cases h1 : o.found ≠ [] ∧ x.1 < o.pos
  · rw [if_pos h1]
    refine ⟨fun h => by simp at h, fun _ => h1.1, ?_, ?_⟩
    · intro y hy
      rcases List.mem_append.mp hy with hy | hy
      · exact h.longest y hy
      · rw [List.mem_singleton.mp hy]; omega
    · intro hf f
      rw [h.exact hf, List.mem_append, List.mem_singleton]
      refine ⟨.inl, ?_⟩
      rintro (g | g)
      · exact g
      · rw [← g] at h1
        dsimp only at h1
        omega
  · rw [if_neg h1]
    have hle : ∀ y ∈ L, y.1 ≤ x.1 := by
      intro y hy
      by_cases hf : o.found = []
      · have : L = [] := Classical.byContradiction fun hne => h.some hne hf
        rw [this] at hy
        cases hy
      · have := h.longest y hy
        have : ¬ x.1 < o.pos := fun hlt => h1 ⟨hf, hlt⟩
        omega
    refine ⟨fun h => by simp at h, fun _ => by simp, ?_, ?_⟩
    · intro y hy
      dsimp only
      rcases List.mem_append.mp hy with hy | hy
      · exact hle y hy
      · rw [List.mem_singleton.mp hy]; exact Nat.le_refl _
    · intro _ f
      dsimp only
      rw [List.mem_append, List.mem_append, List.mem_singleton, List.mem_singleton]
      have hx : (x.1, f) = x ↔ f = x.2 := by
        constructor
        · intro e
          rw [← e]
        · rintro rfl
          rfl
      rw [hx]
      apply or_congr_left
      by_cases hf : o.found = []
      · have : L = [] := Classical.byContradiction fun hne => h.some hne hf
        rw [this, hf, if_neg (by simp)]
        simp
      · by_cases hlt : o.pos < x.1
        · rw [if_pos ⟨hf, hlt⟩]
          refine ⟨fun h => (by cases h), fun hm => ?_⟩
          have := h.longest _ hm
          dsimp only at this
          omega
        · rw [if_neg (fun h => hlt h.2)]
          have : ¬ x.1 < o.pos := fun hlt => h1 ⟨hf, hlt⟩
          have : x.1 = o.pos := by omega
          rw [this]
          exact h.exact hf f

theorem grabbed_fold : ∀ (L P : List Hit) (o : Out), Grabbed o P → Grabbed (L.foldl (Out.note true) o) (P ++ L)
  | [], P, o, h => by rw [List.append_nil]; exact h
  | x :: L, P, o, h => by
    have := grabbed_fold L (P ++ [x]) (o.note true x) (grabbed_note h x)
    rw [List.append_assoc] at this
    exact this

/-- In match mode: of the matches `L` from `i` on a longest one with the least weight was kept. -/
structure Noted (i : Nat) (o : Out) (L : List Hit) : Prop where
  longest : ∀ h ∈ L, h.1 ≤ max i o.pos
  found : i < o.pos → ∃ h ∈ L, h.1 = o.pos ∧ h.2 = (o.result, o.weight)
  least : i < o.pos → ∀ h ∈ L, h.1 = o.pos → o.weight ≤ h.2.2
  empty : o.pos ≤ i → o.result ≠ [] → o.pos = i ∧ ∃ w, (i, o.result, w) ∈ L

theorem noted_note {i : Nat} {o : Out} {L : List Hit} (h : Noted i o L) (x : Hit) (hx : i ≤ x.1) : Noted i (o.note false x) (L ++ [x]) := by
  unfold Out.note
  rw [if_neg (by simp)]
  by_cases h1 : o.pos < x.1 ∨ (x.1 = o.pos ∧ x.2.2 < o.weight)
  · rw [if_pos h1]
    refine ⟨?_, ?_, ?_, ?_⟩
    · intro y hy
      dsimp only
      rcases List.mem_append.mp hy with hy | hy
      · have := h.longest y hy
        omega
      · rw [List.mem_singleton.mp hy]; omega
    · intro _
      exact ⟨x, List.mem_append_right _ (List.mem_singleton.mpr rfl), rfl, rfl⟩
    · intro hlt y hy hyx
      dsimp only at hlt hyx ⊢
      rcases List.mem_append.mp hy with hy | hy
      · rcases h1 with h1 | ⟨h1, h2⟩
        · have := h.longest y hy
          omega
        · have := h.least (by omega) y hy (by omega)
          omega
      · rw [List.mem_singleton.mp hy]; exact Int.le_refl _
    · intro hle _
      dsimp only at hle ⊢
      have : i = x.1 := by omega
      rw [this]
      exact ⟨rfl, x.2.2, List.mem_append_right _ (List.mem_singleton.mpr rfl)⟩
  · rw [if_neg h1]
    refine ⟨?_, ?_, ?_, ?_⟩
    · intro y hy
      rcases List.mem_append.mp hy with hy | hy
      · exact h.longest y hy
      · rw [List.mem_singleton.mp hy]; omega
    · intro hlt
      obtain ⟨y, hy, g⟩ := h.found hlt
      exact ⟨y, List.mem_append_left _ hy, g⟩
    · intro hlt y hy hyx
      rcases List.mem_append.mp hy with hy | hy
      · exact h.least hlt y hy hyx
      · rw [List.mem_singleton] at hy
        rw [hy] at hyx ⊢
        have : ¬ x.2.2 < o.weight := fun g => h1 (.inr ⟨hyx, g⟩)
        omega
    · intro hle hr
      obtain ⟨e, w, hw⟩ := h.empty hle hr
      exact ⟨e, w, List.mem_append_left _ hw⟩

theorem noted_fold {i : Nat} : ∀ (L P : List Hit) (o : Out), (∀ h ∈ L, i ≤ h.1) → Noted i o P → Noted i (L.foldl (Out.note false) o) (P ++ L)
  | [], P, o, _, h => by rw [List.append_nil]; exact h
  | x :: L, P, o, hx, h => by
    have := noted_fold L (P ++ [x]) (o.note false x) (fun y hy => hx y (List.mem_cons_of_mem _ hy)) (noted_note h x (hx x (List.mem_cons_self ..)))
    rw [List.append_assoc] at this
    exact this

theorem run_le {al : PmAlphabet} {Ns : List Part} {input : List Nat} {n t q ip jp : Nat} {stack tape : List (Nat × Nat)} {w : Int}
    (h : Run al Ns input n t q stack ip jp tape w) : ip ≤ jp ∧ (ip < jp → tape ≠ []) ∧ (ip ≤ input.length → jp ≤ input.length) := by
  induction h with
  | stop => exact ⟨Nat.le_refl _, fun h => by omega, id⟩
  | back _ _ _ ih => exact ih
  | epsilon _ _ _ _ ih => exact ⟨ih.1, fun _ => by simp, ih.2.2⟩
  | call _ _ _ _ _ ih => exact ih
  | read _ _ hin _ _ ih =>
    have := (List.getElem?_eq_some_iff.mp hin).1
    exact ⟨by omega, fun _ => by simp, fun _ => ih.2.2 (by omega)⟩

/-! ## One search -/

section
variable {C : Config} {Ns : List Part} {pos level : Nat → Nat → Nat}

/-- What holds between searches. -/
structure Idle (s : State) : Prop where
  depth : s.depth = 0
  weight : s.weight = 0
  stacks : ∀ u, s.stacks u ≠ []

theorem topMatch_exact (hs : Simple C Ns pos level) {depth ip : Nat} {s : State} (h : Idle s) :
    ∃ (s' : State) (L : List Hit), topMatch C depth ip s = .ok s' ∧ Idle s' ∧ s'.out = L.foldl (Out.note C.locate) s.out ∧
      ∀ x : Hit, x ∈ L ↔ Matches C.al Ns C.input depth ip x.1 x.2.1 x.2.2 := by
  unfold topMatch
  obtain ⟨v, hv⟩ := top_some (h.stacks 0)
  rw [hv]
  dsimp only
  have hst : ∀ u, (s.setTop 0 { v with trap := false }).stacks u ≠ [] := by
    intro u hu
    have := setTop_stacks s 0 { v with trap := false } (h.stacks 0) u
    rw [hu, List.length_nil] at this
    exact h.stacks u (List.length_eq_zero_iff.mp this.symm)
  have hN0 : 0 < Ns.length := hs.first
  have hN : Ns[0]? = some Ns[0] := List.getElem?_eq_getElem hN0
  have hT0 : 0 < C.nets.length := by rw [hs.count]; exact hN0
  have hT : C.nets[0]? = some C.nets[0] := List.getElem?_eq_getElem hT0
  have hsto := hs.stored 0 _ _ hN hT
  have hfine : Fine Ns pos level 0 0 [] 0 (s.setTop 0 { v with trap := false }) :=
    ⟨⟨_, hN, hsto.nonempty⟩, Nat.zero_le _, h.depth, Nat.zero_le _, trivial, fun f hf => (by cases hf), hst, by
      rw [(hs.balanced 0 _ hN).start]
      exact Nat.zero_le _⟩
  obtain ⟨s', L, e, hd, hL⟩ := getAnalyses_exact hs depth 0 0 [] ip 0 _ hfine
  rw [hsto.start] at e
  refine ⟨s', L, e, ⟨hd.depth.trans h.depth, hd.weight.trans h.weight, ?_⟩, ?_, hL⟩
  · intro u hu
    have := hd.stacks u
    rw [hu, List.length_nil] at this
    exact hst u (List.length_eq_zero_iff.mp this.symm)
  · rw [hd.out]
    have hid : shift ((s.setTop 0 { v with trap := false }).tape.take 0) (s.setTop 0 { v with trap := false }).weight = id := by
      funext x
      have hw : (s.setTop 0 { v with trap := false }).weight = 0 := h.weight
      rw [hw, List.take_zero]
      unfold shift
      rw [List.nil_append, Int.zero_add]
      rfl
    rw [hid, List.map_id]
    rfl

theorem Simple.captures (hs : Simple C Ns pos level) (cs : List Capture) : Simple { C with oldCaptures := cs } Ns pos level :=
  ⟨hs.flags, hs.default, hs.passthrough, hs.maxWeight, hs.none, hs.count, hs.first, hs.calls, hs.stored, hs.balanced, hs.outputs, hs.symbols,
    hs.looked⟩

/-! ## `match` -/

/-- What holds between rounds in match mode. -/
structure Between (P : Progress) : Prop where
  idle : Idle P.state
  best : P.state.bestPos ≤ P.pos

theorem round_scan (hs : Simple C Ns pos level) (hm : C.locate = false) {order : List Location → List Location} {depth : Nat} {first : List Bool}
    (hf : FirstOK C Ns depth first) {c : Nat} {P : Progress} (hin : C.input[P.pos]? = some c) (h : Between P) :
    ∃ P', round order C depth first c P = .ok P' ∧ Between P' ∧ P.pos < P'.pos ∧ P'.pos ≤ C.input.length ∧ P'.locations = P.locations ∧
      ∃ new, P'.result = P.result ++ new ∧
      ∀ out, Scan (Matches C.al Ns C.input depth) C.input P'.pos out → Scan (Matches C.al Ns C.input depth) C.input P.pos (new ++ out) := by
  have hlt : P.pos < C.input.length := (List.getElem?_eq_some_iff.mp hin).1
  unfold round
  by_cases hfirst : first ≠ [] ∧ (first[c]?).getD false = false
  · rw [if_pos hfirst]
    refine ⟨_, rfl, ⟨⟨h.idle.depth, h.idle.weight, h.idle.stacks⟩, ?_⟩, Nat.lt_succ_self _, hlt, rfl, [(c, c)], rfl, ?_⟩
    · have := h.best
      show P.state.bestPos ≤ P.pos + 1
      omega
    · intro out ho
      exact .copy hin (fun j tape w hM => absurd hM (hf hfirst.1 _ _ hin hfirst.2 _ _ _)) ho
  rw [if_neg hfirst]
  obtain ⟨s', L, e, hi, hout, hL⟩ := topMatch_exact (C := { C with oldCaptures := P.oldCaptures }) (hs.captures _) (depth := depth) (ip := P.pos)
    (s := { P.state with bestResult := [], tape := [], found := [] }) ⟨h.idle.depth, h.idle.weight, h.idle.stacks⟩
  rw [e]
  dsimp only [Outcome.bind]
  have hL : ∀ x : Hit, x ∈ L ↔ Matches C.al Ns C.input depth P.pos x.1 x.2.1 x.2.2 := hL
  have hmem : ∀ x ∈ L, P.pos ≤ x.1 ∧ (P.pos < x.1 → x.2.1 ≠ []) ∧ x.1 ≤ C.input.length := by
    intro x hx
    obtain ⟨n, _, hr⟩ := (hL x).mp hx
    obtain ⟨r1, r2, r3⟩ := run_le hr
    exact ⟨r1, r2, r3 (by omega)⟩
  have hout : s'.out = L.foldl (Out.note false) ⟨[], P.state.bestPos, P.state.bestWeight, []⟩ := by rw [← hm]; exact hout
  have hn : Noted P.pos s'.out L := by
    rw [hout]
    have := noted_fold (i := P.pos) L [] ⟨[], P.state.bestPos, P.state.bestWeight, []⟩ (fun x hx => (hmem x hx).1) (by
      have := h.best
      refine ⟨fun x hx => (by cases hx), ?_, ?_, ?_⟩
      · intro hlt
        dsimp only at hlt
        omega
      · intro _ x hx
        cases hx
      · intro _ hne
        exact absurd rfl hne)
    rw [List.nil_append] at this
    exact this
  have hcand : s'.candidate C.locate = decide (s'.bestResult ≠ []) := by
    unfold State.candidate
    rw [hm]
    rfl
  rw [hcand]
  by_cases hlong : P.pos < s'.bestPos
  · -- a match was found
    obtain ⟨x, hx, hx1, hx2⟩ := hn.found hlong
    have hx1 : x.1 = s'.bestPos := hx1
    have hx2 : x.2 = (s'.bestResult, s'.bestWeight) := hx2
    have hne : s'.bestResult ≠ [] := by
      have := (hmem x hx).2.1 (by omega)
      rw [hx2] at this
      exact this
    rw [if_pos (by simpa using hne)]
    unfold Progress.take
    rw [hm, if_neg (by simp)]
    dsimp only [Outcome.bind]
    rw [if_neg (by
      rintro (g | g)
      · rw [decide_eq_true hne] at g; cases g
      · omega)]
    refine ⟨_, rfl, ⟨hi, Nat.le_refl _⟩, hlong, ?_, rfl, s'.bestResult, rfl, ?_⟩
    · have := (hmem x hx).2.2
      show s'.bestPos ≤ _
      omega
    · intro out ho
      refine .longest (w := s'.bestWeight) hlong ?_ ?_ ho
      · have := (hL x).mp hx
        rw [hx1, hx2] at this
        exact this
      · intro j' tape' w' hM
        have hy := (hL (j', tape', w')).mpr hM
        have h1 := hn.longest _ hy
        have h2 := hn.least hlong _ hy
        have h1 : j' ≤ max P.pos s'.bestPos := h1
        have h2 : j' = s'.bestPos → s'.bestWeight ≤ w' := h2
        by_cases hj : j' = s'.bestPos
        · exact .inr ⟨hj, h2 hj⟩
        · exact .inl (by omega)
  · have honly : ∀ j tape w, Matches C.al Ns C.input depth P.pos j tape w → j = P.pos := by
      intro j tape w hM
      have hy := (hL (j, tape, w)).mpr hM
      have h1 : j ≤ max P.pos s'.bestPos := hn.longest _ hy
      have h2 : P.pos ≤ j := (hmem _ hy).1
      omega
    by_cases hne : s'.bestResult = []
    · rw [if_neg (by simp [hne])]
      dsimp only
      rw [if_pos (.inl (by simp [hne]))]
      refine ⟨_, rfl, ⟨hi, ?_⟩, Nat.lt_succ_self _, hlt, rfl, [(c, c)], rfl, fun out ho => .copy hin honly ho⟩
      show s'.bestPos ≤ P.pos + 1
      omega
    · obtain ⟨hpos, w, hw⟩ := hn.empty (by show s'.bestPos ≤ P.pos; omega) hne
      have hpos : s'.bestPos = P.pos := hpos
      have hempty := (hL _).mp hw
      rw [if_pos (by simpa using hne)]
      unfold Progress.take
      rw [hm, if_neg (by simp)]
      dsimp only [Outcome.bind]
      rw [if_pos (.inr hpos)]
      refine ⟨_, rfl, ⟨hi, ?_⟩, ?_, ?_, rfl, s'.bestResult ++ [(c, c)], ?_, ?_⟩
      · show s'.bestPos ≤ s'.bestPos + 1
        omega
      · show P.pos < s'.bestPos + 1
        omega
      · show s'.bestPos + 1 ≤ _
        omega
      · show P.result ++ s'.bestResult ++ [(c, c)] = _
        rw [List.append_assoc]
      · intro out ho
        have ho : Scan (Matches C.al Ns C.input depth) C.input (s'.bestPos + 1) out := ho
        rw [hpos] at ho
        rw [List.append_assoc]
        exact .empty hin honly hempty ho

theorem loop_scan (hs : Simple C Ns pos level) (hm : C.locate = false) {order : List Location → List Location} {depth : Nat} {first : List Bool}
    (hf : FirstOK C Ns depth first) : ∀ (n : Nat) (P : Progress), P.pos ≤ C.input.length → C.input.length < P.pos + n → Between P →
    ∃ P', processLoop order C depth first n P = .ok P' ∧ P'.locations = P.locations ∧ ∃ new, P'.result = P.result ++ new ∧
      Scan (Matches C.al Ns C.input depth) C.input P.pos new
  | 0, P, h1, h2, _ => by omega
  | n + 1, P, h1, h2, h => by
    unfold processLoop
    by_cases hp : P.pos < C.input.length
    · have hin : C.input[P.pos]? = some C.input[P.pos] := List.getElem?_eq_getElem hp
      rw [hin]
      obtain ⟨P1, e, hb, g1, g2, hl, new, hnew, hscan⟩ := round_scan hs hm (order := order) hf hin h
      obtain ⟨P', e', hl', new', hnew', hscan'⟩ := loop_scan hs hm (order := order) hf n P1 g2 (by omega) hb
      dsimp only
      rw [e]
      refine ⟨P', e', hl'.trans hl, new ++ new', by rw [hnew', hnew, List.append_assoc], hscan _ hscan'⟩
    · have hp : P.pos = C.input.length := by omega
      rw [hp, List.getElem?_eq_none (Nat.le_refl _)]
      exact ⟨P, rfl, rfl, [], by rw [List.append_nil], .done⟩

/-- C64, `match`: matching ends, and the input is rewritten from the left to the right: at each place one of the longest matches is written, one
with the least weight, and what begins no match is copied.  Missing: flags, captures, the default symbol, and weight limits. -/
theorem C64_match_partial (hs : Simple C Ns pos level) (hm : C.locate = false) {order : List Location → List Location} {depth : Nat}
    {first : List Bool} (hf : FirstOK C Ns depth first) {s : State} (hstacks : ∀ u, s.stacks u ≠ []) :
    ∃ out, process order C depth first s = .ok (out, []) ∧ Scan (Matches C.al Ns C.input depth) C.input 0 out := by
  unfold process
  obtain ⟨P', e, hl, new, hnew, hscan⟩ := loop_scan hs hm (order := order) hf (C.input.length + 1)
    ⟨0, 0, [], [], [], [], { s with weight := 0, depth := 0, bestPos := 0, bestCaptures := [], captures := [] }⟩ (Nat.zero_le _)
    (by dsimp only; omega) ⟨⟨rfl, rfl, hstacks⟩, Nat.le_refl _⟩
  rw [e]
  dsimp only [Outcome.bind]
  rw [hm, if_neg (by simp)]
  refine ⟨new, ?_, hscan⟩
  rw [hnew, hl]
  rfl

/-! ## `locate` -/

theorem string_ok {al : PmAlphabet} (hm : Marks al) {k : Nat} (hk : al.isPrintable k = true) :
    al.string k = .ok ((al.base.table[k]?).getD []) := by
  have hk0 : k ≠ 0 := fun h => by rw [h, hm.epsilon] at hk; cases hk
  have hlt : k < al.base.table.length := by
    rw [← hm.size]
    apply Classical.byContradiction
    intro hge
    unfold PmAlphabet.isPrintable at hk
    rw [List.getElem?_eq_none (by omega)] at hk
    cases hk
  unfold PmAlphabet.string Alphabet.string
  rw [if_neg hk0, List.getElem?_eq_getElem hlt]
  rfl

theorem tag_cons (al : PmAlphabet) (p : Nat × Nat) (ps : List (Nat × Nat)) (d : Bytes) :
    (((p :: ps).reverse.find? fun p => al.isEndTag p.2).map fun p => al.startTag p.2).getD d =
      ((ps.reverse.find? fun p => al.isEndTag p.2).map fun p => al.startTag p.2).getD (if al.isEndTag p.2 = true then al.startTag p.2 else d) := by
  rw [List.reverse_cons, List.find?_append]
  cases h : ps.reverse.find? fun p => al.isEndTag p.2 with
  | some x => rfl
  | none =>
    by_cases hp : al.isEndTag p.2 = true
    · simp [hp]
    · simp [hp]

theorem shown_cons (al : PmAlphabet) (k : Nat) (ks : List Nat) : shownSymbols al (k :: ks) =
    (if al.isPrintable k = true then [(al.base.table[k]?).getD []] else []) ++ shownSymbols al ks := by
  unfold shownSymbols
  by_cases hk : al.isPrintable k = true
  · simp [hk]
  · simp [hk]

theorem locateLoop_tells {al : PmAlphabet} (hm : Marks al) : ∀ (tape : List (Nat × Nat)) (l : Location) (im om : Nat),
    ∃ r, locateLoop al tape l im om = .ok r ∧ r.1.weight = l.weight ∧
      r.1.outputSymbols = l.outputSymbols ++ shownSymbols al (tape.map (·.2)) ∧
      r.1.output = l.output ++ (shownSymbols al (tape.map (·.2))).flatten ∧
      r.1.tag = ((tape.reverse.find? fun p => al.isEndTag p.2).map fun p => al.startTag p.2).getD l.tag
  | [], l, im, om => ⟨_, rfl, rfl, by simp [shownSymbols], by simp [shownSymbols], rfl⟩
  | p :: ps, l, im, om => by
    rw [locateLoop, List.map_cons, shown_cons, tag_cons]
    by_cases ht : al.isEndTag p.2 = true
    · rw [if_pos ht, if_pos ht, (hm.tags _ ht).2, if_neg (by simp), List.nil_append]
      exact locateLoop_tells hm ps _ _ _
    rw [if_neg ht, if_neg ht]
    obtain ⟨l1, e1, w1, o1, x1, t1⟩ : ∃ l1 : Location,
        (if al.isPrintable p.2 = true then (al.string p.2).bind fun x => .ok { l with output := l.output ++ x, outputSymbols := l.outputSymbols ++ [x] }
          else .ok l : Outcome Location) = .ok l1 ∧ l1.weight = l.weight ∧
        l1.outputSymbols = l.outputSymbols ++ (if al.isPrintable p.2 = true then [(al.base.table[p.2]?).getD []] else []) ∧
        l1.output = l.output ++ (if al.isPrintable p.2 = true then [(al.base.table[p.2]?).getD []] else []).flatten ∧ l1.tag = l.tag := by
      by_cases hk : al.isPrintable p.2 = true
      · rw [if_pos hk, if_pos hk, string_ok hm hk]
        exact ⟨_, rfl, rfl, rfl, by simp, rfl⟩
      · rw [if_neg hk, if_neg hk]
        exact ⟨_, rfl, rfl, by simp, by simp, rfl⟩
    rw [e1]
    dsimp only [Outcome.bind]
    obtain ⟨l2, e2, w2, o2, x2, t2⟩ : ∃ l2 : Location,
        (if al.isPrintable p.1 = true then (al.string p.1).bind fun x =>
          .ok { l1 with input := l1.input ++ x, inputSymbols := l1.inputSymbols ++ [x], length := l1.length + 1 }
        else .ok l1 : Outcome Location) = .ok l2 ∧ l2.weight = l1.weight ∧ l2.outputSymbols = l1.outputSymbols ∧ l2.output = l1.output ∧
          l2.tag = l1.tag := by
      by_cases hk : al.isPrintable p.1 = true
      · rw [if_pos hk, string_ok hm hk]
        exact ⟨_, rfl, rfl, rfl, rfl, rfl⟩
      · rw [if_neg hk]
        exact ⟨_, rfl, rfl, rfl, rfl, rfl⟩
    have e2' := e2
    dsimp only [Outcome.bind] at e2'
    rw [e2']
    dsimp only
    have hall : ∀ l3 : Location, l3.weight = l2.weight → l3.outputSymbols = l2.outputSymbols → l3.output = l2.output → l3.tag = l2.tag → ∀ im om,
        ∃ r, locateLoop al ps l3 im om = .ok r ∧ r.1.weight = l.weight ∧
          r.1.outputSymbols = l.outputSymbols ++ ((if al.isPrintable p.2 = true then [(al.base.table[p.2]?).getD []] else []) ++
            shownSymbols al (ps.map (·.2))) ∧
          r.1.output = l.output ++ ((if al.isPrintable p.2 = true then [(al.base.table[p.2]?).getD []] else []) ++
            shownSymbols al (ps.map (·.2))).flatten ∧
          r.1.tag = ((ps.reverse.find? fun p => al.isEndTag p.2).map fun p => al.startTag p.2).getD l.tag := by
      intro l3 g1 g2 g3 g4 im om
      obtain ⟨r, e, i1, i2, i3, i4⟩ := locateLoop_tells hm ps l3 im om
      refine ⟨r, e, by rw [i1, g1, w2, w1], ?_, ?_, by rw [i4, g4, t2, t1]⟩
      · rw [i2, g2, o2, o1, List.append_assoc]
      · rw [i3, g3, x2, x1, List.flatten_append, List.append_assoc]
    split
    · refine hall _ ?_ ?_ ?_ ?_ _ _
      all_goals rfl
    · exact hall _ rfl rfl rfl rfl _ _

theorem locatefy_tells {al : PmAlphabet} (hm : Marks al) (start : Nat) (tape : List (Nat × Nat)) (w : Int) :
    ∃ l, locatefy al start tape w = .ok l ∧ Tells al tape w l := by
  unfold locatefy
  obtain ⟨r, e, h1, h2, h3, h4⟩ := locateLoop_tells hm tape ⟨start, 0, [], [], [], w, [], [], [], []⟩ 0 0
  rw [e]
  exact ⟨_, rfl, h1, h2, h3, h4⟩

theorem locateAll_tells {al : PmAlphabet} (hm : Marks al) (start : Nat) : ∀ fs : List (List (Nat × Nat) × Int),
    ∃ ls, locateAll al start fs = .ok ls ∧ (∀ l ∈ ls, ∃ f ∈ fs, Tells al f.1 f.2 l) ∧ ∀ f ∈ fs, ∃ l ∈ ls, Tells al f.1 f.2 l
  | [] => ⟨[], rfl, fun l hl => (by cases hl), fun l hl => (by cases hl)⟩
  | f :: fs => by
    obtain ⟨l, e, h⟩ := locatefy_tells hm start f.1 f.2
    obtain ⟨ls, e', h1, h2⟩ := locateAll_tells hm start fs
    rw [locateAll, e]
    dsimp only [Outcome.bind]
    rw [e']
    refine ⟨l :: ls, rfl, ?_, ?_⟩
    · intro x hx
      rcases List.mem_cons.mp hx with rfl | hx
      · exact ⟨f, List.mem_cons_self .., h⟩
      · obtain ⟨g, hg, ht⟩ := h1 x hx
        exact ⟨g, List.mem_cons_of_mem _ hg, ht⟩
    · intro x hx
      rcases List.mem_cons.mp hx with rfl | hx
      · exact ⟨l, List.mem_cons_self .., h⟩
      · obtain ⟨g, hg, ht⟩ := h2 x hx
        exact ⟨g, List.mem_cons_of_mem _ hg, ht⟩

theorem noteRest_gap {al : PmAlphabet} (hm : Marks al) (n : Nat) (rest : List (Nat × Nat)) (ls : List (List Location)) :
    ∃ new, noteRest al n rest ls = .ok (ls ++ new) ∧ ∀ gs hs, WithGaps gs hs → WithGaps (new ++ gs) hs := by
  unfold noteRest
  by_cases hr : rest = []
  · rw [if_pos hr]
    exact ⟨[], by rw [List.append_nil], fun gs hs h => h⟩
  · rw [if_neg hr]
    obtain ⟨l, e, _⟩ := locatefy_tells hm (n - rest.length) rest 0
    rw [e]
    exact ⟨_, rfl, fun gs hs h => .gap rfl h⟩

theorem round_located (hs : Simple C Ns pos level) (hm : C.locate = true) (hmk : Marks C.al) {order : List Location → List Location}
    (hord : Sorts order) {depth : Nat} {first : List Bool} (hf : FirstOK C Ns depth first) {c : Nat} {P : Progress}
    (hin : C.input[P.pos]? = some c) (h : Idle P.state) :
    ∃ P', round order C depth first c P = .ok P' ∧ Idle P'.state ∧ P.pos < P'.pos ∧ P'.pos ≤ C.input.length ∧
      ∃ new, P'.locations = P.locations ++ new ∧
      ∀ gs ls, WithGaps gs ls → Located (Matches C.al Ns C.input depth) C.al C.input.length P'.pos ls →
        ∃ ls', WithGaps (new ++ gs) ls' ∧ Located (Matches C.al Ns C.input depth) C.al C.input.length P.pos ls' := by
  have hlt : P.pos < C.input.length := (List.getElem?_eq_some_iff.mp hin).1
  unfold round
  by_cases hfirst : first ≠ [] ∧ (first[c]?).getD false = false
  · rw [if_pos hfirst]
    refine ⟨_, rfl, ⟨h.depth, h.weight, h.stacks⟩, Nat.lt_succ_self _, hlt, [], (List.append_nil _).symm, ?_⟩
    intro gs ls hg ho
    exact ⟨ls, hg, .skip (hf hfirst.1 _ _ hin hfirst.2) ho⟩
  rw [if_neg hfirst]
  obtain ⟨s', L, e, hi, hout, hL⟩ := topMatch_exact (C := { C with oldCaptures := P.oldCaptures }) (hs.captures _) (depth := depth) (ip := P.pos)
    (s := { P.state with bestResult := [], tape := [], found := [] }) ⟨h.depth, h.weight, h.stacks⟩
  rw [e]
  dsimp only [Outcome.bind]
  have hL : ∀ x : Hit, x ∈ L ↔ Matches C.al Ns C.input depth P.pos x.1 x.2.1 x.2.2 := hL
  have hout : s'.out = L.foldl (Out.note true) ⟨[], P.state.bestPos, P.state.bestWeight, []⟩ := by rw [← hm]; exact hout
  by_cases hnone : L = []
  · have hfound : s'.found = [] := by
      have : s'.out.found = [] := by rw [hout, hnone]; rfl
      exact this
    have hcand : s'.candidate C.locate = false := by
      unfold State.candidate
      rw [hm, hfound]
      rfl
    rw [hcand, if_neg (by simp)]
    dsimp only
    rw [if_pos (.inl rfl)]
    refine ⟨_, rfl, hi, Nat.lt_succ_self _, hlt, [], (List.append_nil _).symm, ?_⟩
    intro gs ls hg ho
    refine ⟨ls, hg, .skip ?_ ho⟩
    intro j tape w hM
    have := (hL (j, tape, w)).mpr hM
    rw [hnone] at this
    cases this
  · have hgrab : Grabbed s'.out L := by
      rw [hout]
      cases L with
      | nil => exact absurd rfl hnone
      | cons x L =>
        rw [List.foldl_cons]
        refine grabbed_fold L [x] _ ?_
        unfold Out.note
        rw [if_pos rfl, if_neg (by simp)]
        refine ⟨fun h => (by cases h), fun _ => by simp, ?_, ?_⟩
        · intro y hy
          rw [List.mem_singleton.mp hy]
          exact Nat.le_refl _
        · intro _ f
          simp only [ne_eq, not_true_eq_false, false_and, if_false, List.nil_append, List.mem_singleton]
          constructor
          · rintro rfl
            rfl
          · intro e
            rw [← e]
    have hfound : s'.found ≠ [] := hgrab.some hnone
    have hexact : ∀ f, f ∈ s'.found ↔ (s'.bestPos, f) ∈ L := hgrab.exact hfound
    have hlong : ∀ x ∈ L, x.1 ≤ s'.bestPos := hgrab.longest
    have hcand : s'.candidate C.locate = true := by
      unfold State.candidate
      rw [hm]
      simpa using hfound
    obtain ⟨new, en, hgap⟩ := noteRest_gap hmk P.printable P.rest P.locations
    obtain ⟨locs, el, ht1, ht2⟩ := locateAll_tells hmk P.printable s'.found
    rw [hcand, if_pos rfl]
    unfold Progress.take
    rw [if_pos hm, en]
    dsimp only [Outcome.bind]
    rw [el]
    dsimp only
    have hgroup : Group (Matches C.al Ns C.input depth) C.al P.pos s'.bestPos (order locs) := by
      refine ⟨?_, ?_, hord.sorted _⟩
      · intro l hl
        obtain ⟨f, hf, ht⟩ := ht1 l ((hord.perm _ _).mp hl)
        exact ⟨f.1, f.2, (hL _).mp ((hexact f).mp hf), ht⟩
      · intro tape w hM
        obtain ⟨l, hl, ht⟩ := ht2 (tape, w) ((hexact _).mpr ((hL (s'.bestPos, tape, w)).mpr hM))
        exact ⟨l, (hord.perm _ _).mpr hl, ht⟩
    have hmost : ∀ j tape w, Matches C.al Ns C.input depth P.pos j tape w → j ≤ s'.bestPos :=
      fun j tape w hM => hlong _ ((hL (j, tape, w)).mpr hM)
    obtain ⟨f, hfm⟩ := List.exists_mem_of_ne_nil _ hfound
    have hM0 := (hL _).mp ((hexact f).mp hfm)
    obtain ⟨k, _, hrun⟩ := hM0
    obtain ⟨r1, _, r3⟩ := run_le hrun
    have hne : order locs ≠ [] := by
      obtain ⟨l, hl, _⟩ := ht2 f hfm
      have := (hord.perm _ _).mpr hl
      intro e
      rw [e] at this
      cases this
    have hge : P.pos ≤ s'.bestPos := r1
    have hle : s'.bestPos ≤ C.input.length := r3 (by omega)
    have hgaps : ∀ gs ls, WithGaps gs ls → WithGaps ((new ++ [order locs]) ++ gs) (order locs :: ls) := by
      intro gs ls hg
      rw [List.append_assoc]
      exact hgap _ _ (.keep hg)
    by_cases hpos : s'.bestPos = P.pos
    · rw [if_pos (.inr hpos)]
      refine ⟨_, rfl, hi, ?_, ?_, new ++ [order locs], List.append_assoc .., ?_⟩
      · show P.pos < s'.bestPos + 1
        omega
      · show s'.bestPos + 1 ≤ _
        omega
      · intro gs ls hg ho
        have ho : Located (Matches C.al Ns C.input depth) C.al C.input.length (s'.bestPos + 1) ls := ho
        rw [hpos] at ho hgroup
        refine ⟨_, hgaps gs ls hg, .empty ?_ hne hgroup ho⟩
        intro j tape w hM
        have := hmost j tape w hM
        obtain ⟨_, _, hr⟩ := hM
        have := (run_le hr).1
        omega
    · rw [if_neg (by
        rintro (g | g)
        · cases g
        · exact hpos g)]
      refine ⟨_, rfl, hi, ?_, hle, new ++ [order locs], List.append_assoc .., ?_⟩
      · show P.pos < s'.bestPos
        omega
      · intro gs ls hg ho
        exact ⟨_, hgaps gs ls hg, .longest (by omega) hmost hne hgroup ho⟩

theorem loop_located (hs : Simple C Ns pos level) (hm : C.locate = true) (hmk : Marks C.al) {order : List Location → List Location}
    (hord : Sorts order) {depth : Nat} {first : List Bool} (hf : FirstOK C Ns depth first) : ∀ (n : Nat) (P : Progress),
    P.pos ≤ C.input.length → C.input.length < P.pos + n → Idle P.state →
    ∃ P', processLoop order C depth first n P = .ok P' ∧ ∃ new, P'.locations = P.locations ++ new ∧
      ∀ gs, WithGaps gs [] → ∃ ls, WithGaps (new ++ gs) ls ∧ Located (Matches C.al Ns C.input depth) C.al C.input.length P.pos ls
  | 0, P, h1, h2, _ => by omega
  | n + 1, P, h1, h2, h => by
    unfold processLoop
    by_cases hp : P.pos < C.input.length
    · have hin : C.input[P.pos]? = some C.input[P.pos] := List.getElem?_eq_getElem hp
      rw [hin]
      obtain ⟨P1, e, hb, g1, g2, new, hnew, hloc⟩ := round_located hs hm hmk hord hf hin h
      obtain ⟨P', e', new', hnew', hloc'⟩ := loop_located hs hm hmk hord hf n P1 g2 (by omega) hb
      dsimp only
      rw [e]
      refine ⟨P', e', new ++ new', by rw [hnew', hnew, List.append_assoc], ?_⟩
      intro gs hg
      obtain ⟨ls, k1, k2⟩ := hloc' gs hg
      obtain ⟨ls', k3, k4⟩ := hloc _ _ k1 k2
      rw [List.append_assoc]
      exact ⟨ls', k3, k4⟩
    · have hp : P.pos = C.input.length := by omega
      rw [hp, List.getElem?_eq_none (Nat.le_refl _)]
      exact ⟨P, rfl, [], by rw [List.append_nil], fun gs hg => ⟨[], hg, .done⟩⟩

/-- C64, `locate`: locating ends; from the left to the right it gives all the longest matches at each place, sorted by weight, and between them
locations for what begins no match.  Missing: flags, captures, the default symbol, and weight limits. -/
theorem C64_locate_partial (hs : Simple C Ns pos level) (hm : C.locate = true) (hmk : Marks C.al) {order : List Location → List Location}
    (hord : Sorts order) {depth : Nat} {first : List Bool} (hf : FirstOK C Ns depth first) {s : State} (hstacks : ∀ u, s.stacks u ≠ []) :
    ∃ out groups ls, process order C depth first s = .ok (out, groups) ∧ WithGaps groups ls ∧
      Located (Matches C.al Ns C.input depth) C.al C.input.length 0 ls := by
  unfold process
  obtain ⟨P', e, new, hnew, hloc⟩ := loop_located hs hm hmk hord hf (C.input.length + 1)
    ⟨0, 0, [], [], [], [], { s with weight := 0, depth := 0, bestPos := 0, bestCaptures := [], captures := [] }⟩ (Nat.zero_le _)
    (by dsimp only; omega) ⟨rfl, rfl, hstacks⟩
  rw [e]
  dsimp only [Outcome.bind]
  rw [if_pos hm]
  obtain ⟨gap, eg, hgap⟩ := noteRest_gap hmk P'.printable P'.rest P'.locations
  rw [eg]
  obtain ⟨ls, k1, k2⟩ := hloc gap (by
    have := hgap [] [] .nil
    rw [List.append_nil] at this
    exact this)
  refine ⟨_, _, ls, rfl, ?_, k2⟩
  rw [hnew]
  exact k1

end

end Hfst.Pmatch
