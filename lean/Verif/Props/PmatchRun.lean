import Verif.Props.Pmatch

/-!
# C63: matching and locating keep the input
-/
namespace Hfst.Pmatch
open Hfst.Basic Hfst.Ol

variable {C : Config} {Q : Nat × Nat → Prop}

theorem Rule.captures (hr : Rule C Q) (cs : List Capture) : Rule { C with oldCaptures := cs } Q :=
  ⟨hr.nonzero, hr.same, hr.free, hr.plain, hr.generic⟩

theorem BestOK.uncapture {cs : List Capture} {start : Nat} {s : State} (h : BestOK { C with oldCaptures := cs } Q start s) : BestOK C Q start s :=
  ⟨h.result, h.found⟩

/-- A search from a place in the input finds only good results. -/
theorem topMatch_ok (hr : Rule C Q) {depth ip : Nat} (hip : ip ≤ C.input.length) {s s' : State}
    (e : topMatch C depth ip { s with bestResult := [], tape := [], found := [] } = .ok s') : BestOK C Q ip s' := by
  unfold topMatch at e
  split at e
  · cases e
  · have hpre : Pre C Q ip ip 0 { s with bestResult := [], tape := [], found := [] } := by
      refine ⟨Nat.le_refl _, hip, Nat.zero_le _, ⟨?_, ?_⟩, ⟨fun h => absurd rfl h, fun h => absurd rfl h⟩⟩
      · rw [slice_self]; rfl
      · intro p hp
        cases hp
    refine (getAnalyses_ok hr depth _ _ _ _ _ _ (hpre.same ?_) e).best
    exact ⟨rfl, rfl, rfl, rfl⟩

theorem candidate_match {s : State} : s.candidate false = true ↔ s.bestResult ≠ [] := by
  unfold State.candidate
  simp

theorem candidate_locate {s : State} : s.candidate true = true ↔ s.found ≠ [] := by
  unfold State.candidate
  simp

theorem take_succ_of {input : List Nat} {i c : Nat} (h : input[i]? = some c) : input.take (i + 1) = input.take i ++ [c] := by
  rw [← slice_zero, ← slice_append (Nat.zero_le i) (Nat.le_succ i), slice_zero, slice_one h]

/-! ## The result of `match` -/

theorem copy_match {P : Progress} {c : Nat} (hr : Rule C Q) (hin : C.input[P.pos]? = some c)
    (h : Holds Q P.result (C.input.take P.pos)) : Holds Q (P.copy C c).result (C.input.take (P.copy C c).pos) := by
  have hcin : c ∈ C.input := List.mem_of_getElem? hin
  have hc0 : c ≠ 0 := fun h0 => hr.nonzero (by rw [← h0]; exact hcin)
  show Holds Q (P.result ++ [(c, c)]) (C.input.take (P.pos + 1))
  rw [take_succ_of hin]
  refine ⟨?_, ?_⟩
  · rw [inputsOf_append, h.1]
    congr 1
    unfold inputsOf
    simp [hc0]
  · intro q hq
    rcases List.mem_append.mp hq with hq | hq
    · exact h.2 q hq
    · rw [List.mem_singleton] at hq; rw [hq]; exact hr.same c hcin

theorem round_match {order : List Location → List Location} {depth : Nat} {first : List Bool} {c : Nat} {P P' : Progress} (hr : Rule C Q)
    (hm : C.locate = false) (hin : C.input[P.pos]? = some c) (h : Holds Q P.result (C.input.take P.pos))
    (e : round order C depth first c P = .ok P') : Holds Q P'.result (C.input.take P'.pos) ∧ P'.pos ≤ C.input.length := by
  have hlt : P.pos < C.input.length := (List.getElem?_eq_some_iff.mp hin).1
  unfold round at e
  split at e
  · injection e with e
    rw [← e]
    exact ⟨copy_match (P := { P with state := { P.state with bestResult := [] } }) hr hin h, hlt⟩
  rw [bind_ok] at e
  obtain ⟨s, e1, e⟩ := e
  have hbest : BestOK C Q P.pos s := (topMatch_ok (hr.captures P.oldCaptures) (Nat.le_of_lt hlt) e1).uncapture
  rw [bind_ok] at e
  obtain ⟨P1, e2, e⟩ := e
  rw [hm] at e2 e
  have h1 : Holds Q P1.result (C.input.take P1.pos) ∧ P1.pos ≤ C.input.length ∧ (s.candidate false = false → P1.pos = P.pos) := by
    split at e2
    · rename_i hcand
      unfold Progress.take at e2
      rw [hm, if_neg (by simp)] at e2
      dsimp only [Outcome.bind] at e2
      injection e2 with e2
      rw [← e2]
      obtain ⟨_, b2, b3, b4⟩ := hbest.result (candidate_match.mp hcand)
      refine ⟨?_, b3, fun hx => by rw [hx] at hcand; cases hcand⟩
      show Holds Q (P.result ++ s.bestResult) (C.input.take s.bestPos)
      rw [← slice_zero, ← slice_append (Nat.zero_le P.pos) b2, slice_zero]
      refine ⟨by rw [inputsOf_append, h.1, b4.1], ?_⟩
      intro q hq
      rcases List.mem_append.mp hq with hq | hq
      · exact h.2 q hq
      · exact b4.2 q hq
    · injection e2 with e2
      rw [← e2]
      exact ⟨h, Nat.le_of_lt hlt, fun _ => rfl⟩
  split at e
  · rename_i hcopy
    injection e with e
    have hpos : P1.pos = P.pos := by
      rcases hcopy with hcopy | hcopy
      · exact h1.2.2 hcopy
      · exact hcopy
    rw [← e]
    refine ⟨copy_match hr (by rw [hpos]; exact hin) h1.1, ?_⟩
    show P1.pos + 1 ≤ _
    omega
  · injection e with e
    rw [← e]; exact ⟨h1.1, h1.2.1⟩

theorem processLoop_match {order : List Location → List Location} {depth : Nat} {first : List Bool} (hr : Rule C Q)
    (hm : C.locate = false) : ∀ (n : Nat) (P P' : Progress), P.pos ≤ C.input.length → Holds Q P.result (C.input.take P.pos) →
      processLoop order C depth first n P = .ok P' → Holds Q P'.result C.input
  | 0, _, _, _, _, e => by cases e
  | n + 1, P, P', hp, h, e => by
    rw [processLoop] at e
    match hin : C.input[P.pos]? with
    | none =>
      rw [hin] at e
      injection e with e
      rw [← e]
      rw [List.getElem?_eq_none_iff] at hin
      rw [List.take_of_length_le (by omega)] at h
      exact h
    | some c =>
      rw [hin] at e
      dsimp only at e
      rw [bind_ok] at e
      obtain ⟨P1, e1, e⟩ := e
      obtain ⟨h1, h2⟩ := round_match hr hm hin h e1
      exact processLoop_match hr hm n P1 P' h2 h1 e

/-- The tape that `match` makes has the whole input. -/
theorem process_match {order : List Location → List Location} {depth : Nat} {first : List Bool} {s : State} (hr : Rule C Q)
    (hm : C.locate = false) {r : List (Nat × Nat) × List (List Location)} (e : process order C depth first s = .ok r) :
    Holds Q r.1 C.input := by
  unfold process at e
  rw [bind_ok] at e
  obtain ⟨P, e1, e⟩ := e
  have h := processLoop_match hr hm _ _ P (Nat.zero_le _) ⟨rfl, fun p hp => by cases hp⟩ e1
  rw [hm, if_neg (by simp)] at e
  dsimp only [Outcome.bind] at e
  injection e with e
  rw [← e]; exact h

/-! ## Locations -/

/-- End tags are written without reading anything. -/
def TagsFree (al : PmAlphabet) (p : Nat × Nat) : Prop := al.isEndTag p.2 = true → p.1 = 0

theorem shown_append (al : PmAlphabet) (a b : List Nat) : shownSymbols al (a ++ b) = shownSymbols al a ++ shownSymbols al b := by
  unfold shownSymbols
  rw [List.filter_append, List.map_append]

theorem string_table {al : PmAlphabet} (hm : Marks al) {k : Nat} (hk : al.isPrintable k = true) {x : Bytes} (e : al.string k = .ok x) :
    al.base.table[k]? = some x := by
  have hk0 : k ≠ 0 := fun h => by rw [h, hm.epsilon] at hk; cases hk
  unfold PmAlphabet.string at e
  split at e
  · cases e
  · rename_i y hy
    injection e with e
    unfold Alphabet.string at hy
    rw [if_neg hk0] at hy
    rw [hy, e]

theorem shown_pair {al : PmAlphabet} (hm : Marks al) (p : Nat × Nat) (ps : List (Nat × Nat)) : shownSymbols al (inputsOf (p :: ps)) =
    (if al.isPrintable p.1 = true then [(al.base.table[p.1]?).getD []] else []) ++ shownSymbols al (inputsOf ps) := by
  rw [show p :: ps = [p] ++ ps from rfl, inputsOf_append, shown_append]
  congr 1
  unfold inputsOf shownSymbols
  by_cases hp : p.1 = 0
  · simp [hp, hm.epsilon]
  · by_cases hk : al.isPrintable p.1 = true
    · simp [hp, hk]
    · simp [hp, hk]

theorem locateLoop_ok {al : PmAlphabet} (hm : Marks al) : ∀ (tape : List (Nat × Nat)) (l : Location) (im om : Nat) (r : Location × Nat × Nat),
    (∀ p ∈ tape, TagsFree al p) → locateLoop al tape l im om = .ok r →
    r.1.start = l.start ∧ r.1.weight = l.weight ∧ r.1.inputSymbols = l.inputSymbols ++ shownSymbols al (inputsOf tape) ∧
      r.1.input = l.input ++ (shownSymbols al (inputsOf tape)).flatten ∧ r.1.length = l.length + (shownSymbols al (inputsOf tape)).length
  | [], l, im, om, r, _, e => by
    injection e with e
    rw [← e]
    simp [inputsOf, shownSymbols]
  | p :: ps, l, im, om, r, hq, e => by
    have hq' : ∀ p ∈ ps, TagsFree al p := fun p hp => hq p (List.mem_cons_of_mem _ hp)
    rw [locateLoop] at e
    rw [shown_pair hm]
    split at e
    · rename_i ht
      have h0 := hq p (List.mem_cons_self ..) ht
      have := locateLoop_ok hm ps _ _ _ r hq' e
      rw [h0, hm.epsilon, if_neg (by simp), List.nil_append]
      exact this
    rw [bind_ok] at e
    obtain ⟨l1, e1, e⟩ := e
    have hl1 : l1.start = l.start ∧ l1.weight = l.weight ∧ l1.inputSymbols = l.inputSymbols ∧ l1.input = l.input ∧ l1.length = l.length := by
      split at e1
      · rw [bind_ok] at e1
        obtain ⟨x, _, e1⟩ := e1
        injection e1 with e1
        rw [← e1]
        exact ⟨rfl, rfl, rfl, rfl, rfl⟩
      · injection e1 with e1
        rw [← e1]
        exact ⟨rfl, rfl, rfl, rfl, rfl⟩
    rw [bind_ok] at e
    obtain ⟨l2, e2, e⟩ := e
    have hl2 : l2.start = l1.start ∧ l2.weight = l1.weight ∧
        l2.inputSymbols = l1.inputSymbols ++ (if al.isPrintable p.1 = true then [(al.base.table[p.1]?).getD []] else []) ∧
        l2.input = l1.input ++ (if al.isPrintable p.1 = true then [(al.base.table[p.1]?).getD []] else []).flatten ∧
        l2.length = l1.length + (if al.isPrintable p.1 = true then [(al.base.table[p.1]?).getD []] else []).length := by
      split at e2
      · rename_i hk
        rw [bind_ok] at e2
        obtain ⟨x, ex, e2⟩ := e2
        injection e2 with e2
        have hx := string_table hm hk ex
        rw [← e2, if_pos hk, hx]
        exact ⟨rfl, rfl, rfl, by simp, rfl⟩
      · rename_i hk
        injection e2 with e2
        rw [← e2, if_neg hk]
        exact ⟨rfl, rfl, by simp, by simp, rfl⟩
    have hall : ∀ l3 : Location, l3.start = l2.start → l3.weight = l2.weight → l3.inputSymbols = l2.inputSymbols → l3.input = l2.input →
        l3.length = l2.length → ∀ im om, locateLoop al ps l3 im om = .ok r →
        r.1.start = l.start ∧ r.1.weight = l.weight ∧
        r.1.inputSymbols = l.inputSymbols ++ ((if al.isPrintable p.1 = true then [(al.base.table[p.1]?).getD []] else []) ++
          shownSymbols al (inputsOf ps)) ∧
        r.1.input = l.input ++ ((if al.isPrintable p.1 = true then [(al.base.table[p.1]?).getD []] else []) ++
          shownSymbols al (inputsOf ps)).flatten ∧
        r.1.length = l.length + ((if al.isPrintable p.1 = true then [(al.base.table[p.1]?).getD []] else []) ++
          shownSymbols al (inputsOf ps)).length := by
      intro l3 g1 g2 g3 g4 g5 im om e
      obtain ⟨i1, i2, i3, i4, i5⟩ := locateLoop_ok hm ps l3 im om r hq' e
      refine ⟨by rw [i1, g1, hl2.1, hl1.1], by rw [i2, g2, hl2.2.1, hl1.2.1], ?_, ?_, ?_⟩
      · rw [i3, g3, hl2.2.2.1, hl1.2.2.1, List.append_assoc]
      · rw [i4, g4, hl2.2.2.2.1, hl1.2.2.2.1, List.flatten_append, List.append_assoc]
      · rw [i5, g5, hl2.2.2.2.2, hl1.2.2.2.2, List.length_append]
        omega
    split at e
    · refine hall _ ?_ ?_ ?_ ?_ ?_ _ _ e
      all_goals rfl
    · exact hall _ rfl rfl rfl rfl rfl _ _ e

/-- What `locatefy` says about the input. -/
theorem locatefy_ok {al : PmAlphabet} (hm : Marks al) {start : Nat} {tape : List (Nat × Nat)} {w : Int} {l : Location} {ks : List Nat}
    (h : Holds (TagsFree al) tape ks) (e : locatefy al start tape w = .ok l) :
    l.start = start ∧ l.weight = w ∧ l.inputSymbols = shownSymbols al ks ∧ l.input = (shownSymbols al ks).flatten ∧
      l.length = (shownSymbols al ks).length := by
  unfold locatefy at e
  rw [bind_ok] at e
  obtain ⟨r, e1, e⟩ := e
  injection e with e
  obtain ⟨i1, i2, i3, i4, i5⟩ := locateLoop_ok hm tape _ _ _ r h.2 e1
  rw [h.1] at i3 i4 i5
  rw [← e]
  exact ⟨i1, i2, by rw [i3, List.nil_append], by rw [i4, List.nil_append], by rw [i5, Nat.zero_add]⟩

theorem locateAll_ok {al : PmAlphabet} (hm : Marks al) {start : Nat} {ks : List Nat} : ∀ (fs : List (List (Nat × Nat) × Int)) (ls : List Location),
    (∀ f ∈ fs, Holds (TagsFree al) f.1 ks) → locateAll al start fs = .ok ls → ls.length = fs.length ∧ ∀ l ∈ ls,
      l.start = start ∧ l.inputSymbols = shownSymbols al ks ∧ l.input = (shownSymbols al ks).flatten ∧ l.length = (shownSymbols al ks).length
  | [], ls, _, e => by
    injection e with e
    rw [← e]
    exact ⟨rfl, fun l hl => by cases hl⟩
  | f :: fs, ls, h, e => by
    rw [locateAll, bind_ok] at e
    obtain ⟨l, e1, e⟩ := e
    rw [bind_ok] at e
    obtain ⟨ls', e2, e⟩ := e
    injection e with e
    obtain ⟨h1, h2⟩ := locateAll_ok hm fs ls' (fun f hf => h f (List.mem_cons_of_mem _ hf)) e2
    rw [← e]
    refine ⟨by rw [List.length_cons, h1, List.length_cons], ?_⟩
    intro l' hl'
    rcases List.mem_cons.mp hl' with rfl | hl'
    · obtain ⟨a, _, b⟩ := locatefy_ok hm (h f (List.mem_cons_self ..)) e1
      exact ⟨a, b⟩
    · exact h2 l' hl'

theorem Tiles.snoc {starts : Prop} {n : Nat} {xs : List Bytes} {gs : List (List Location)} (h : Tiles starts n xs gs) {x : List Bytes}
    {g : List Location} (hg : g ≠ [])
    (hl : ∀ l ∈ g, (starts → l.start = n + xs.length) ∧ l.inputSymbols = x ∧ l.input = x.flatten ∧ l.length = x.length) :
    Tiles starts n (xs ++ x) (gs ++ [g]) := by
  induction h with
  | nil =>
    have := Tiles.cons (starts := starts) (rest := []) hg hl Tiles.nil
    rw [List.append_nil] at this
    exact this
  | @cons n y rest g' gs' h1 h2 _ ih =>
    rw [List.append_assoc, List.cons_append]
    refine Tiles.cons h1 h2 (ih ?_)
    intro l hl'
    obtain ⟨a, b⟩ := hl l hl'
    refine ⟨fun hs => ?_, b⟩
    rw [a hs, List.length_append]
    omega

/-- What is known during locating. -/
structure LocateInv (C : Config) (P : Progress) : Prop where
  pos : P.pos ≤ C.input.length
  parts : ∃ a b, C.input.take P.pos = a ++ b ∧
    Tiles (∀ k ∈ C.input, C.al.isPrintable k = true) 0 (shownSymbols C.al a) P.locations ∧
    P.rest = (b.filter fun k => C.al.isPrintable k).map fun k => (k, k)
  size : (∀ k ∈ C.input, C.al.isPrintable k = true) → P.printable = P.pos

theorem Tiles.weaken {a b : Prop} {n : Nat} {xs : List Bytes} {gs : List (List Location)} (h : Tiles a n xs gs) (hab : b → a) : Tiles b n xs gs := by
  induction h with
  | nil => exact .nil
  | cons hg hl _ ih => exact .cons hg (fun l h => ⟨fun hb => (hl l h).1 (hab hb), (hl l h).2⟩) ih

theorem shown_length {al : PmAlphabet} {ks : List Nat} (h : ∀ k ∈ ks, al.isPrintable k = true) : (shownSymbols al ks).length = ks.length := by
  unfold shownSymbols
  rw [List.length_map, List.filter_eq_self.mpr h]

theorem shown_filter (al : PmAlphabet) (ks : List Nat) : shownSymbols al (ks.filter fun k => al.isPrintable k) = shownSymbols al ks := by
  unfold shownSymbols
  rw [List.filter_filter]
  congr 2
  funext k
  cases al.isPrintable k <;> rfl

theorem noteRest_ok (hm : Marks C.al) {P : Progress} (h : LocateInv C P) {ls : List (List Location)}
    (e : noteRest C.al P.printable P.rest P.locations = .ok ls) :
    Tiles (∀ k ∈ C.input, C.al.isPrintable k = true) 0 (shownSymbols C.al (C.input.take P.pos)) ls := by
  obtain ⟨a, b, h1, h2, h3⟩ := h.parts
  unfold noteRest at e
  rw [h1, shown_append]
  split at e
  · rename_i hr
    injection e with e
    rw [h3, List.map_eq_nil_iff] at hr
    have : shownSymbols C.al b = [] := by unfold shownSymbols; rw [hr]; rfl
    rw [← e, this, List.append_nil]
    exact h2
  · rw [bind_ok] at e
    obtain ⟨l, e1, e⟩ := e
    injection e with e
    rw [← e]
    have hb0 : 0 ∉ b.filter fun k => C.al.isPrintable k := by
      intro hx
      have := (List.mem_filter.mp hx).2
      rw [hm.epsilon] at this; cases this
    have hholds : Holds (TagsFree C.al) P.rest (b.filter fun k => C.al.isPrintable k) := by
      rw [h3]
      refine ⟨inputsOf_dup hb0, ?_⟩
      intro p hp ht
      obtain ⟨k, hk, rfl⟩ := List.mem_map.mp hp
      have := (List.mem_filter.mp hk).2
      rw [(hm.tags k ht).2] at this; cases this
    obtain ⟨g1, _, g3, g4, g5⟩ := locatefy_ok hm hholds e1
    rw [shown_filter] at g3 g4 g5
    refine h2.snoc (by simp) ?_
    intro l' hl'
    rw [List.mem_singleton] at hl'
    rw [hl']
    refine ⟨?_, g3, g4, g5⟩
    intro hall
    show l.start = _
    have hab : ∀ k ∈ a ++ b, C.al.isPrintable k = true := by
      rw [← h1]
      exact fun k hk => hall k (List.mem_of_mem_take hk)
    have hlen : (a ++ b).length = P.pos := by rw [← h1, List.length_take]; have := h.pos; omega
    rw [g1, h.size hall, h3, shown_length fun k hk => hab k (List.mem_append_left _ hk), List.length_map,
      List.filter_eq_self.mpr fun k hk => hab k (List.mem_append_right _ hk)]
    rw [List.length_append] at hlen
    omega

theorem copy_locate (hm : C.locate = true) {P : Progress} {c : Nat} (hin : C.input[P.pos]? = some c) (h : LocateInv C P) :
    LocateInv C (P.copy C c) := by
  obtain ⟨a, b, h1, h2, h3⟩ := h.parts
  refine ⟨(List.getElem?_eq_some_iff.mp hin).1, ⟨a, b ++ [c], ?_, h2, ?_⟩, ?_⟩
  · show C.input.take (P.pos + 1) = _
    rw [take_succ_of hin, h1, List.append_assoc]
  · show (if C.locate = true ∧ C.al.isPrintable c = true then P.rest ++ [(c, c)] else P.rest) = _
    rw [List.filter_append, List.map_append, ← h3]
    by_cases hk : C.al.isPrintable c = true
    · rw [if_pos ⟨hm, hk⟩]; simp [hk]
    · rw [if_neg (fun hx => hk hx.2)]; simp [hk]
  · intro hall
    show (if C.locate = true ∧ C.al.isPrintable c = true then P.printable + 1 else P.printable) = P.pos + 1
    rw [if_pos ⟨hm, hall c (List.mem_of_getElem? hin)⟩, h.size hall]

theorem round_locate {order : List Location → List Location} (ho : ∀ l, (order l).Perm l) {depth : Nat} {first : List Bool} {c : Nat}
    {P P' : Progress} (hr : Rule C (TagsFree C.al)) (hmarks : Marks C.al) (hm : C.locate = true) (hin : C.input[P.pos]? = some c)
    (h : LocateInv C P) (e : round order C depth first c P = .ok P') : LocateInv C P' := by
  have hlt : P.pos < C.input.length := (List.getElem?_eq_some_iff.mp hin).1
  unfold round at e
  split at e
  · injection e with e
    rw [← e]
    exact copy_locate hm (P := { P with state := { P.state with bestResult := [] } }) hin ⟨h.pos, h.parts, h.size⟩
  rw [bind_ok] at e
  obtain ⟨s, e1, e⟩ := e
  have hbest : BestOK C (TagsFree C.al) P.pos s := (topMatch_ok (hr.captures P.oldCaptures) (Nat.le_of_lt hlt) e1).uncapture
  rw [bind_ok] at e
  obtain ⟨P1, e2, e⟩ := e
  rw [hm] at e2 e
  have h1 : LocateInv C P1 ∧ (s.candidate true = false → P1.pos = P.pos) := by
    split at e2
    · rename_i hcand
      unfold Progress.take at e2
      rw [if_pos hm, bind_ok] at e2
      obtain ⟨P2, e3, e2⟩ := e2
      rw [bind_ok] at e3
      obtain ⟨ls, e4, e3⟩ := e3
      rw [bind_ok] at e3
      obtain ⟨l, e5, e3⟩ := e3
      injection e3 with e3
      injection e2 with e2
      rw [← e2, ← e3]
      refine ⟨?_, fun hx => by rw [hx] at hcand; cases hcand⟩
      have hne := candidate_locate.mp hcand
      obtain ⟨_, b2, b3, b4⟩ := hbest.found hne
      have ht := noteRest_ok hmarks h e4
      obtain ⟨l1, l2⟩ := locateAll_ok hmarks _ _ b4 e5
      refine ⟨b3, ⟨C.input.take s.bestPos, [], (List.append_nil _).symm, ?_, rfl⟩, ?_⟩
      · show Tiles _ 0 (shownSymbols C.al (C.input.take s.bestPos)) (ls ++ [order l])
        rw [← slice_zero, ← slice_append (Nat.zero_le P.pos) b2, slice_zero, shown_append]
        refine ht.snoc ?_ ?_
        · intro hnil
          have := (ho l).length_eq
          rw [hnil, l1] at this
          exact hne (List.length_eq_zero_iff.mp this.symm)
        · intro x hx
          obtain ⟨m1, m2⟩ := l2 x ((ho l).mem_iff.mp hx)
          refine ⟨?_, m2⟩
          intro hall
          rw [m1, h.size hall, shown_length fun k hk => hall k (List.mem_of_mem_take hk), List.length_take]
          omega
      · intro hall
        show P.printable + (s.bestPos - P.pos) = s.bestPos
        rw [h.size hall]
        omega
    · injection e2 with e2
      rw [← e2]
      exact ⟨⟨h.pos, h.parts, h.size⟩, fun _ => rfl⟩
  split at e
  · rename_i hcopy
    injection e with e
    have hpos : P1.pos = P.pos := by
      rcases hcopy with hcopy | hcopy
      · exact h1.2 hcopy
      · exact hcopy
    rw [← e]
    exact copy_locate hm (by rw [hpos]; exact hin) h1.1
  · injection e with e
    rw [← e]; exact h1.1

theorem processLoop_locate {order : List Location → List Location} (ho : ∀ l, (order l).Perm l) {depth : Nat} {first : List Bool}
    (hr : Rule C (TagsFree C.al)) (hmarks : Marks C.al) (hm : C.locate = true) : ∀ (n : Nat) (P P' : Progress), LocateInv C P →
      processLoop order C depth first n P = .ok P' → LocateInv C P' ∧ P'.pos = C.input.length
  | 0, _, _, _, e => by cases e
  | n + 1, P, P', h, e => by
    rw [processLoop] at e
    match hin : C.input[P.pos]? with
    | none =>
      rw [hin] at e
      injection e with e
      rw [← e]
      rw [List.getElem?_eq_none_iff] at hin
      exact ⟨h, by have := h.pos; omega⟩
    | some c =>
      rw [hin] at e
      dsimp only at e
      rw [bind_ok] at e
      obtain ⟨P1, e1, e⟩ := e
      exact processLoop_locate ho hr hmarks hm n P1 P' (round_locate ho hr hmarks hm hin h e1) e

/-- The locations cover the input. -/
theorem process_locate {order : List Location → List Location} (ho : ∀ l, (order l).Perm l) {depth : Nat} {first : List Bool} {s : State}
    (hr : Rule C (TagsFree C.al)) (hmarks : Marks C.al) (hm : C.locate = true) {r : List (Nat × Nat) × List (List Location)}
    (e : process order C depth first s = .ok r) :
    Tiles (∀ k ∈ C.input, C.al.isPrintable k = true) 0 (shownSymbols C.al C.input) r.2 := by
  unfold process at e
  rw [bind_ok] at e
  obtain ⟨P, e1, e⟩ := e
  obtain ⟨h, hp⟩ := processLoop_locate ho hr hmarks hm _ _ P ⟨Nat.zero_le _, ⟨[], [], rfl, Tiles.nil, rfl⟩, fun _ => rfl⟩ e1
  rw [if_pos hm, bind_ok] at e
  obtain ⟨ls, e2, e⟩ := e
  injection e with e
  have := noteRest_ok hmarks h e2
  rw [hp, List.take_length] at this
  rw [← e]; exact this

end Hfst.Pmatch
