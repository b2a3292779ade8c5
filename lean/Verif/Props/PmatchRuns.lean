import Verif.Spec.PmatchRuns
import Verif.Props.Pmatch

/-!
# C64: matching finds the runs of the nets
-/
namespace Hfst.Pmatch
open Hfst.Basic Hfst.Ol

/-! ## What was found -/

/-- A match: where it ends, what it writes, and its weight. -/
abbrev Hit := Nat × List (Nat × Nat) × Int

/-- The results in a state. -/
structure Out where
  result : List (Nat × Nat)
  pos : Nat
  weight : Int
  found : List (List (Nat × Nat) × Int)

/-- The results in a state. -/
def State.out (s : State) : Out := ⟨s.bestResult, s.bestPos, s.bestWeight, s.found⟩

/-- A match is found. -/
def Out.note (locate : Bool) (o : Out) (h : Hit) : Out :=
  if locate = true then
    if o.found ≠ [] ∧ h.1 < o.pos then o
    else { o with pos := h.1, found := (if o.found ≠ [] ∧ o.pos < h.1 then [] else o.found) ++ [h.2] }
  else if o.pos < h.1 ∨ (h.1 = o.pos ∧ h.2.2 < o.weight) then { o with result := h.2.1, pos := h.1, weight := h.2.2 }
  else o

/-- A match after the tape `p` and the weight `w`. -/
def shift (p : List (Nat × Nat)) (w : Int) (h : Hit) : Hit := (h.1, p ++ h.2.1, w + h.2.2)

theorem shift_shift (p p' : List (Nat × Nat)) (w w' : Int) (h : Hit) : shift p w (shift p' w' h) = shift (p ++ p') (w + w') h := by
  unfold shift
  rw [List.append_assoc, Int.add_assoc]

/-- Between the states `s` and `s'` just the matches `L` were found. -/
structure Did (C : Config) (L : List Hit) (tp : Nat) (s s' : State) : Prop where
  out : s'.out = (L.map (shift (s.tape.take tp) s.weight)).foldl (Out.note C.locate) s.out
  tape : s'.tape.take tp = s.tape.take tp
  size : tp ≤ s'.tape.length
  weight : s'.weight = s.weight
  depth : s'.depth = s.depth
  entries : s'.entries = s.entries
  calls : ∀ j : Nat, (s'.calls[j]?).getD [] = (s.calls[j]?).getD []
  more : s.calls.length ≤ s'.calls.length
  stacks : ∀ u, (s'.stacks u).length = (s.stacks u).length

theorem Did.refl {C : Config} {tp : Nat} {s : State} (h : tp ≤ s.tape.length) : Did C [] tp s s :=
  ⟨rfl, rfl, h, rfl, rfl, rfl, fun _ => rfl, Nat.le_refl _, fun _ => rfl⟩

theorem Did.trans {C : Config} {L L' : List Hit} {tp : Nat} {s t u : State} (h : Did C L tp s t) (h' : Did C L' tp t u) :
    Did C (L ++ L') tp s u where
  out := by rw [h'.out, h.out, List.map_append, List.foldl_append, h.tape, h.weight]
  tape := h'.tape.trans h.tape
  size := h'.size
  weight := h'.weight.trans h.weight
  depth := h'.depth.trans h.depth
  entries := h'.entries.trans h.entries
  calls := fun j => (h'.calls j).trans (h.calls j)
  more := Nat.le_trans h.more h'.more
  stacks := fun u => (h'.stacks u).trans (h.stacks u)

/-- A call with `p` written on the tape and `w` added to the weight. -/
theorem Did.lift {C : Config} {L : List Hit} {tp : Nat} {s s1 s2 s3 : State} {p : List (Nat × Nat)} {w : Int}
    (h : Did C L (tp + p.length) s1 s2) (hp : s1.tape.take (tp + p.length) = s.tape.take tp ++ p) (hsize : tp ≤ s.tape.length)
    (hout : s1.out = s.out) (hw : s1.weight = s.weight + w) (htape : s3.tape = s2.tape) (hout3 : s3.out = s2.out) (hw3 : s3.weight = s.weight)
    (hdepth : s3.depth = s.depth) (hentries : s3.entries = s.entries) (hcalls : ∀ j : Nat, (s3.calls[j]?).getD [] = (s.calls[j]?).getD [])
    (hmore : s.calls.length ≤ s3.calls.length) (hstacks : ∀ u, (s3.stacks u).length = (s.stacks u).length) :
    Did C (L.map (shift p w)) tp s s3 where
  out := by
    rw [hout3, h.out, hp, hw, hout, List.map_map]
    congr 1
    apply List.map_congr_left
    intro x _
    exact (shift_shift _ _ _ _ _).symm
  tape := by
    have h1 := congrArg (List.take tp) h.tape
    rw [hp, List.take_take, Nat.min_eq_left (by omega)] at h1
    rw [htape, h1, List.take_append_of_le_length (by rw [List.length_take]; omega), List.take_take, Nat.min_self]
  size := by rw [htape]; have := h.size; omega
  weight := hw3
  depth := hdepth
  entries := hentries
  calls := hcalls
  more := hmore
  stacks := hstacks

/-! ## The stacks -/

/-- The stacks of calls have the frames. -/
def Frames (pos : Nat → Nat → Nat) (calls : List (List (Nat × Nat))) : List (Nat × Nat) → Prop
  | [] => True
  | f :: st => (((calls[st.length]?).getD []).head? = some (f.1, pos f.1 f.2)) ∧ Frames pos calls st

theorem Frames.congr {pos : Nat → Nat → Nat} {calls calls' : List (List (Nat × Nat))} : ∀ (st : List (Nat × Nat)),
    (∀ j : Nat, j < st.length → (calls'[j]?).getD [] = (calls[j]?).getD []) → Frames pos calls st → Frames pos calls' st
  | [], _, _ => trivial
  | f :: st, hc, h => ⟨by rw [hc st.length (by rw [List.length_cons]; omega)]; exact h.1,
      Frames.congr st (fun j hj => hc j (by rw [List.length_cons]; omega)) h.2⟩

/-- The number of entries without exits. -/
def levels (level : Nat → Nat → Nat) (st : List (Nat × Nat)) : Nat := (st.map fun f => level f.1 f.2).sum

/-- What a call needs. -/
structure Fine (Ns : List Part) (pos level : Nat → Nat → Nat) (t q : Nat) (stack : List (Nat × Nat)) (tp : Nat) (s : State) : Prop where
  net : ∃ N, Ns[t]? = some N ∧ q < N.net.size
  size : tp ≤ s.tape.length
  depth : s.depth = stack.length
  calls : stack.length ≤ s.calls.length
  frames : Frames pos s.calls stack
  valid : ∀ f ∈ stack, ∃ N, Ns[f.1]? = some N ∧ f.2 < N.net.size
  stacks : ∀ u, s.stacks u ≠ []
  entries : level t q + levels level stack ≤ s.entries.length

theorem Fine.after {C : Config} {Ns : List Part} {pos level : Nat → Nat → Nat} {t q tp : Nat} {stack : List (Nat × Nat)} {s s' : State}
    {L : List Hit} (h : Fine Ns pos level t q stack tp s) (hd : Did C L tp s s') : Fine Ns pos level t q stack tp s' where
  net := h.net
  size := hd.size
  depth := hd.depth.trans h.depth
  calls := Nat.le_trans h.calls hd.more
  frames := h.frames.congr _ fun j _ => hd.calls j
  valid := h.valid
  stacks := fun u hu => by
    have := hd.stacks u
    rw [hu, List.length_nil] at this
    exact h.stacks u (List.length_eq_zero_iff.mp this.symm)
  entries := by rw [hd.entries]; exact h.entries

/-- The call finds just the runs with fewer than `d` steps. -/
def Exact (C : Config) (Ns : List Part) (pos level : Nat → Nat → Nat) (d : Nat) (call : Call) : Prop :=
  ∀ (t q : Nat) (stack : List (Nat × Nat)) (ip tp : Nat) (s : State), Fine Ns pos level t q stack tp s →
    ∃ s' L, call t ip tp (pos t q) s = .ok s' ∧ Did C L tp s s' ∧ ∀ h : Hit, h ∈ L ↔ ∃ n < d, Run C.al Ns C.input n t q stack ip h.1 h.2.1 h.2.2

section
variable {C : Config} {Ns : List Part} {pos level : Nat → Nat → Nat} {d : Nat} {call : Call}

theorem setTop_stacks (s : State) (t : Nat) (v : Locals) (h : s.stacks t ≠ []) (u : Nat) :
    ((s.setTop t v).stacks u).length = (s.stacks u).length := by
  unfold State.setTop
  dsimp only
  split
  · rename_i hu
    subst hu
    rw [List.length_cons, List.length_tail]
    have := List.length_pos_iff.mpr h
    omega
  · rfl

theorem top_some {s : State} {t : Nat} (h : s.stacks t ≠ []) : ∃ v, s.top t = some v := by
  unfold State.top
  match hs : s.stacks t, h with
  | v :: _, _ => exact ⟨v, rfl⟩

/-! ## Calls of nets -/

theorem pushCall_calls {s : State} {f : Nat × Nat} (h : s.depth ≤ s.calls.length) (j : Nat) :
    ((s.pushCall f).calls[j]?).getD [] = if j = s.depth then f :: (s.calls[j]?).getD [] else (s.calls[j]?).getD [] := by
  unfold State.pushCall
  split
  · rename_i hl
    dsimp only
    have hd : s.depth = s.calls.length := by omega
    by_cases hj : j = s.depth
    · rw [if_pos hj, hj, hd, List.getElem?_append_right (Nat.le_refl _), Nat.sub_self, List.getElem?_eq_none (Nat.le_refl _)]
      rfl
    · rw [if_neg hj]
      by_cases hlt : j < s.calls.length
      · rw [List.getElem?_append_left hlt]
      · rw [List.getElem?_eq_none (l := s.calls) (by omega), List.getElem?_eq_none]
        rw [List.length_append, List.length_singleton]
        omega
  · rename_i hl
    dsimp only
    rw [List.getElem?_set]
    by_cases hj : s.depth = j
    · rw [if_pos hj, if_pos (by omega), if_pos hj.symm, hj]
      rfl
    · rw [if_neg hj, if_neg (fun h => hj h.symm)]

theorem pushCall_length {s : State} {f : Nat × Nat} (h : s.depth ≤ s.calls.length) :
    s.depth + 1 ≤ (s.pushCall f).calls.length ∧ s.calls.length ≤ (s.pushCall f).calls.length := by
  unfold State.pushCall
  split
  · dsimp only
    rw [List.length_append, List.length_singleton]
    omega
  · dsimp only
    rw [List.length_set]
    omega

theorem popCall_calls {s : State} (h : s.depth < s.calls.length) (j : Nat) :
    (s.popCall.calls[j]?).getD [] = if j = s.depth then ((s.calls[j]?).getD []).tail else (s.calls[j]?).getD [] := by
  unfold State.popCall
  dsimp only
  rw [List.getElem?_set]
  by_cases hj : s.depth = j
  · rw [if_pos hj, if_pos (by omega), if_pos hj.symm, hj]
    rfl
  · rw [if_neg hj, if_neg (fun h => hj h.symm)]

theorem rtnCall_exact (hc : Exact C Ns pos level d call) {t u q ip tp target : Nat} {stack : List (Nat × Nat)} {s : State}
    (h : Fine Ns pos level t q stack tp s) (hu : ∃ N, Ns[u]? = some N ∧ 0 < N.net.size) (hpos : pos u 0 = 0) (hlevel : level u 0 = 0)
    (htarget : ∃ N, Ns[t]? = some N ∧ target < N.net.size) (hl : level t target = level t q) :
    ∃ s' L, rtnCall C call u ip tp t (pos t target) s = .ok s' ∧ Did C L tp s s' ∧
      ∀ h : Hit, h ∈ L ↔ ∃ n < d, Run C.al Ns C.input n u 0 ((t, target) :: stack) ip h.1 h.2.1 h.2.2 := by
  unfold rtnCall
  dsimp only
  have hdep : s.depth ≤ s.calls.length := by rw [h.depth]; exact h.calls
  have hpc := pushCall_calls (s := s) (f := (t, pos t target)) hdep
  obtain ⟨hpl, hpl'⟩ := pushCall_length (s := s) (f := (t, pos t target)) hdep
  have hsame : (s.pushCall (t, pos t target)).stacks = s.stacks ∧ (s.pushCall (t, pos t target)).tape = s.tape ∧
      (s.pushCall (t, pos t target)).weight = s.weight ∧ (s.pushCall (t, pos t target)).depth = s.depth ∧
      (s.pushCall (t, pos t target)).entries = s.entries ∧ (s.pushCall (t, pos t target)).out = s.out := by
    unfold State.pushCall
    split <;> exact ⟨rfl, rfl, rfl, rfl, rfl, rfl⟩
  generalize s.pushCall (t, pos t target) = s1 at *
  obtain ⟨g1, g2, g3, g4, g5, g6⟩ := hsame
  obtain ⟨v, hv⟩ := top_some (s := s1) (t := u) (by rw [g1]; exact h.stacks u)
  rw [hv]
  dsimp only
  generalize hs2 : ({ s1 with depth := s1.depth + 1 }.push u ⟨.init C.al.fd.numFeatures, false⟩) = s2
  have k1 : s2.tape = s1.tape := by rw [← hs2]; rfl
  have k2 : s2.calls = s1.calls := by rw [← hs2]; rfl
  have k3 : s2.depth = s1.depth + 1 := by rw [← hs2]; rfl
  have k4 : s2.entries = s1.entries := by rw [← hs2]; rfl
  have k5 : s2.weight = s1.weight := by rw [← hs2]; rfl
  have k6 : s2.out = s1.out := by rw [← hs2]; rfl
  have k7 : ∀ w, (s2.stacks w).length = (s1.stacks w).length + if w = u then 1 else 0 := by
    intro w
    rw [← hs2]
    unfold State.push
    dsimp only
    split
    · rename_i hw
      rw [hw]; rfl
    · rfl
  have hfine : Fine Ns pos level u 0 ((t, target) :: stack) tp s2 := by
    refine ⟨hu, by rw [k1, g2]; exact h.size, by rw [k3, g4, h.depth]; rfl, ?_, ⟨?_, ?_⟩, ?_, ?_, ?_⟩
    · rw [k2, List.length_cons, ← h.depth]; exact hpl
    · rw [k2, hpc, if_pos h.depth.symm]; rfl
    · rw [k2]
      refine Frames.congr (calls := s.calls) _ (fun j hj => ?_) h.frames
      rw [hpc, if_neg (by rw [h.depth]; omega)]
    · intro f hf
      rcases List.mem_cons.mp hf with rfl | hf
      · exact htarget
      · exact h.valid f hf
    · intro w hw
      have := k7 w
      rw [hw, List.length_nil, g1] at this
      have := List.length_pos_iff.mpr (h.stacks w)
      omega
    · have := h.entries
      rw [k4, g5, hlevel]
      unfold levels at this ⊢
      rw [List.map_cons, List.sum_cons]
      dsimp only
      omega
  obtain ⟨s3, L, e, hd, hL⟩ := hc u 0 ((t, target) :: stack) ip tp s2 hfine
  rw [hpos] at e
  rw [e]
  dsimp only [Outcome.bind]
  have hd3 : s3.depth = s.depth + 1 := by rw [hd.depth, k3, g4]
  rw [hd3]
  dsimp only
  refine ⟨_, L, rfl, ?_, hL⟩
  have hlen3 : s.depth < s3.calls.length := by
    have := hd.more
    rw [k2] at this
    omega
  have hpop := popCall_calls (s := { s3.pop u with depth := s.depth }) hlen3
  have hid : L.map (shift [] 0) = L := by
    have : shift [] 0 = id := by
      funext x
      unfold shift
      rw [List.nil_append, Int.zero_add]
      rfl
    rw [this, List.map_id]
  rw [← hid]
  refine Did.lift (p := []) (s1 := s2) (s2 := s3) hd ?_ h.size (k6.trans g6) ?_ rfl rfl ?_ rfl ?_ ?_ ?_ ?_
  · rw [List.append_nil, k1, g2]; rfl
  · rw [k5, g3, Int.add_zero]
  · show s3.weight = _
    rw [hd.weight, k5, g3]
  · show s3.entries = _
    rw [hd.entries, k4, g5]
  · intro j
    rw [hpop]
    show (if j = s.depth then ((s3.calls[j]?).getD []).tail else (s3.calls[j]?).getD []) = _
    rw [hd.calls, k2, hpc]
    by_cases hj : j = s.depth
    · rw [if_pos hj, if_pos hj]; rfl
    · rw [if_neg hj, if_neg hj]
  · show s.calls.length ≤ (s3.calls.set _ _).length
    rw [List.length_set]
    have := hd.more
    rw [k2] at this
    omega
  · intro w
    show ((if w = u then (s3.stacks u).tail else s3.stacks w)).length = _
    have h1 := hd.stacks w
    rw [k7, g1] at h1
    split at h1
    · rename_i hw
      rw [if_pos hw, List.length_tail, ← hw, h1]; rfl
    · rename_i hw
      rw [if_neg hw]
      exact h1

/-! ## Transitions that read nothing -/

/-- The matches that begin with the transition `a`, which reads nothing. -/
def ViaFree (C : Config) (Ns : List Part) (d t : Nat) (stack : List (Nat × Nat)) (ip : Nat) (a : NArc) (h : Hit) : Prop :=
  (a.input = 0 ∧ ∃ n < d, ∃ tape v, Run C.al Ns C.input n t a.target stack ip h.1 tape v ∧ h.2 = ((0, a.output) :: tape, a.weight + v)) ∨
  (a.input ≠ 0 ∧ ∃ u, C.al.rtn a.input = some u ∧ ∃ n < d, ∃ v, Run C.al Ns C.input n u 0 ((t, a.target) :: stack) ip h.1 h.2.1 v ∧ h.2.2 = a.weight + v)

theorem mem_shift {L : List Hit} {p : List (Nat × Nat)} {w : Int} {h : Hit} :
    h ∈ L.map (shift p w) ↔ ∃ tape v, (h.1, tape, v) ∈ L ∧ h.2 = (p ++ tape, w + v) := by
  rw [List.mem_map]
  constructor
  · rintro ⟨x, hx, rfl⟩
    exact ⟨x.2.1, x.2.2, hx, rfl⟩
  · rintro ⟨tape, v, h1, h2⟩
    refine ⟨_, h1, ?_⟩
    show (h.1, p ++ tape, w + v) = h
    rw [← h2]

theorem takeEpsilon_exact (hs : Simple C Ns pos level) (hc : Exact C Ns pos level d call) {t q ip tp : Nat} {stack : List (Nat × Nat)} {N : Part}
    (hN : Ns[t]? = some N) (hclosed : ∀ a ∈ N.net.arcs q, a.target < N.net.size) {a : NArc} (ha : a ∈ N.net.arcs q) (h0 : a.input = 0)
    {s : State} (h : Fine Ns pos level t q stack tp s) :
    ∃ s' L, (takeEpsilon C call t ip tp a.output (pos t a.target) { s with weight := s.weight + a.weight }).bind
      (fun s2 => .ok { s2 with weight := s.weight }) = .ok s' ∧ Did C L tp s s' ∧ ∀ x : Hit, x ∈ L ↔ ViaFree C Ns d t stack ip a x := by
  have hq : q < N.net.size := by
    obtain ⟨N', h1, h2⟩ := h.net
    rw [hN] at h1
    injection h1 with h1
    rw [h1]; exact h2
  have hb := hs.balanced t N hN
  have hout := hs.outputs t N hN q hq a ha
  have hwl : tp + 1 ≤ (writeTape s.tape tp (0, a.output)).length := by
    rw [write_length]; omega
  -- what a call gives
  have key : ∀ (es : List Nat), level t a.target + levels level stack ≤ es.length →
      ∃ (s2 : State) (L : List Hit), call t ip (tp + 1) (pos t a.target) { s with weight := s.weight + a.weight, tape := writeTape s.tape tp (0, a.output), entries := es } = .ok s2 ∧
        s2.entries = es ∧
        (∀ s3 : State, s3.tape = s2.tape → s3.out = s2.out → s3.weight = s.weight → s3.depth = s2.depth → s3.entries = s.entries →
          s3.calls = s2.calls → s3.stacks = s2.stacks → Did C (L.map (shift [(0, a.output)] a.weight)) tp s s3) ∧
        ∀ x : Hit, x ∈ L.map (shift [(0, a.output)] a.weight) ↔ ViaFree C Ns d t stack ip a x := by
    intro es hes
    obtain ⟨s2, L, e, hd, hL⟩ := hc t a.target stack ip (tp + 1)
      { s with weight := s.weight + a.weight, tape := writeTape s.tape tp (0, a.output), entries := es }
      ⟨⟨N, hN, hclosed a ha⟩, hwl, h.depth, h.calls, h.frames, h.valid, h.stacks, hes⟩
    refine ⟨s2, L, e, hd.entries, ?_, ?_⟩
    · intro s3 i1 i2 i3 i4 i5 i6 i7
      refine Did.lift (p := [(0, a.output)]) hd (write_take h.size _) h.size rfl rfl i1 i2 i3 (i4.trans hd.depth) i5 ?_ ?_ ?_
      · rw [i6]; exact hd.calls
      · rw [i6]; exact hd.more
      · rw [i7]; exact hd.stacks
    · intro x
      rw [mem_shift]
      constructor
      · rintro ⟨tape, v, h1, h2⟩
        rw [hL] at h1
        obtain ⟨n, h3, h4⟩ := h1
        exact .inl ⟨h0, n, h3, tape, v, h4, h2⟩
      · rintro (⟨_, n, h3, tape, v, h4, h2⟩ | ⟨h1, _⟩)
        · exact ⟨tape, v, (hL _).mpr ⟨n, h3, h4⟩, h2⟩
        · exact absurd h0 h1
  have hent := h.entries
  unfold takeEpsilon
  dsimp only
  by_cases c1 : a.output = C.al.entry
  · rw [if_pos c1]
    have hl := hb.entry q hq a ha h0 c1
    obtain ⟨s2, L, e, k1, k2, k3⟩ := key (ip :: s.entries) (by rw [List.length_cons]; omega)
    rw [e]
    dsimp only [Outcome.bind]
    exact ⟨_, _, rfl, k2 _ rfl rfl rfl rfl (by dsimp only; rw [k1]; rfl) rfl rfl, k3⟩
  rw [if_neg c1]
  by_cases c2 : a.output = C.al.exit
  · rw [if_pos c2]
    have hl := hb.exit q hq a ha h0 c1 c2
    match hes : s.entries with
    | [] =>
      rw [hes, List.length_nil] at hent
      omega
    | x :: rest =>
      rw [hes, List.length_cons] at hent
      obtain ⟨s2, L, e, k1, k2, k3⟩ := key rest (by omega)
      dsimp only
      rw [e]
      dsimp only [Outcome.bind]
      exact ⟨_, _, rfl, k2 _ rfl rfl rfl rfl (by dsimp only; rw [k1, hes]) rfl rfl, k3⟩
  rw [if_neg c2, hout.2.1, hout.2.2]
  dsimp only
  rw [if_neg (by simp), if_neg (by simp)]
  have hl := hb.other q hq a ha (.inr ⟨c1, c2⟩)
  obtain ⟨s2, L, e, k1, k2, k3⟩ := key s.entries (by omega)
  have e' : call t ip (tp + 1) (pos t a.target) { s with weight := s.weight + a.weight, tape := writeTape s.tape tp (0, a.output) } = .ok s2 := e
  rw [e']
  dsimp only [Outcome.bind]
  exact ⟨_, _, rfl, k2 _ rfl rfl rfl rfl k1 rfl rfl, k3⟩

/-- The matches that begin with one of the transitions `l`. -/
def Via (P : NArc → Hit → Prop) (l : List NArc) (h : Hit) : Prop := ∃ a ∈ l, P a h

theorem via_cons {P : NArc → Hit → Prop} {a : NArc} {l : List NArc} {h : Hit} : Via P (a :: l) h ↔ P a h ∨ Via P l h := by
  unfold Via
  constructor
  · rintro ⟨b, hb, hp⟩
    rcases List.mem_cons.mp hb with rfl | hb
    · exact .inl hp
    · exact .inr ⟨b, hb, hp⟩
  · rintro (hp | ⟨b, hb, hp⟩)
    · exact ⟨a, List.mem_cons_self .., hp⟩
    · exact ⟨b, List.mem_cons_of_mem _ hb, hp⟩

theorem Entries.tail {weightOf : Nat → Int} {T : Tables} {pos : Nat → Nat} {i : Nat} {a : NArc} {l : List NArc} {stop : Trans → Prop}
    (h : Entries weightOf T pos i (a :: l) stop) : Entries weightOf T pos (i + 1) l stop := by
  refine ⟨fun k b hk => ?_, ?_⟩
  · obtain ⟨t, h1, h2⟩ := h.1 (k + 1) b hk
    exact ⟨t, by rw [← h1]; congr 1; omega, h2⟩
  · obtain ⟨t, h1, h2⟩ := h.2
    exact ⟨t, by rw [← h1, List.length_cons]; congr 1; omega, h2⟩

theorem takeEpsilons_exact (hs : Simple C Ns pos level) (hc : Exact C Ns pos level d call) {t q ip tp : Nat} {stack : List (Nat × Nat)} {N : Part}
    {T : Tables} (hN : Ns[t]? = some N) (hT : C.nets[t]? = some T) : ∀ (l : List NArc) (n i : Nat) (s : State),
      (∀ a ∈ l, a ∈ N.net.arcs q ∧ Free C.al a.input) → Entries C.weightOf T (pos t) i l (fun t => ¬ Free C.al t.input) → l.length < n →
      Fine Ns pos level t q stack tp s →
      ∃ s' L, takeEpsilons C call T t ip tp n i s = .ok s' ∧ Did C L tp s s' ∧ ∀ x : Hit, x ∈ L ↔ Via (ViaFree C Ns d t stack ip) l x
  | _, 0, _, _, _, _, hn, _ => by omega
  | l, n + 1, i, s, hl, he, hn, h => by
    have hst := hs.stored t N T hN hT
    have hq : q < N.net.size := by
      obtain ⟨N', h1, h2⟩ := h.net
      rw [hN] at h1
      injection h1 with h1
      rw [h1]; exact h2
    have hsmall : ∀ {j : Nat} {e : Trans}, T.transitions[j]? = some e → ¬ targetStart ≤ j := by
      intro j e hj hle
      have := (List.getElem?_eq_some_iff.mp hj).1
      have := hst.size
      omega
    rw [takeEpsilons]
    match l, hl, he, hn with
    | [], hl, he, hn =>
      obtain ⟨e, h1, h2⟩ := he.2
      rw [List.length_nil, Nat.add_zero] at h1
      rw [if_neg (hsmall h1), h1]
      dsimp only
      rw [hs.flags]
      have h2 : ¬ (e.input = 0 ∨ C.al.rtn e.input ≠ none) := h2
      rw [if_pos ⟨fun h => h2 (.inl h), rfl, Classical.byContradiction fun h => h2 (.inr h)⟩]
      exact ⟨s, [], rfl, Did.refl h.size, fun x => ⟨fun hx => (by cases hx), fun ⟨a, ha, _⟩ => (by cases ha)⟩⟩
    | a :: l, hl, he, hn =>
      obtain ⟨e, h1, h2, h3, h4, h5⟩ := he.1 0 a rfl
      rw [Nat.add_zero] at h1
      rw [if_neg (hsmall h1), h1]
      dsimp only
      rw [hs.flags]
      obtain ⟨ha, hfree⟩ := hl a (List.mem_cons_self ..)
      rw [if_neg (by rw [h2]; rintro ⟨g1, _, g2⟩; rcases hfree with hf | hf; exact g1 hf; exact hf g2), h2, h3, h4, h5]
      have hcl : ∀ a ∈ N.net.arcs q, a.target < N.net.size := hst.closed q hq
      -- this transition
      have step : ∃ s2 L, (if a.input = 0 then takeEpsilon C call t ip tp a.output (pos t a.target) { s with weight := s.weight + a.weight }
            else if (none : Option Flags.FdOperation).isSome = true then takeFlag C call t a.input ip tp (pos t a.target) { s with weight := s.weight + a.weight }
            else match C.al.rtn a.input with
              | none => .ok { s with weight := s.weight + a.weight }
              | some u => rtnCall C call u ip tp t (pos t a.target) { s with weight := s.weight + a.weight }) = .ok s2 ∧
            Did C L tp s { s2 with weight := s.weight } ∧ ∀ x : Hit, x ∈ L ↔ ViaFree C Ns d t stack ip a x := by
        by_cases h0 : a.input = 0
        · obtain ⟨s', L, e1, e2, e3⟩ := takeEpsilon_exact (ip := ip) hs hc hN hcl ha h0 h
          rw [bind_ok] at e1
          obtain ⟨s2, e1, e4⟩ := e1
          injection e4 with e4
          rw [if_pos h0]
          exact ⟨s2, L, e1, by rw [e4]; exact e2, e3⟩
        · rw [if_neg h0, if_neg (by simp)]
          match hr : C.al.rtn a.input with
          | none => rcases hfree with hf | hf
                    · exact absurd hf h0
                    · exact absurd hr hf
          | some u =>
            dsimp only
            have hu := hs.calls _ _ hr
            have hNu : Ns[u]? = some Ns[u] := List.getElem?_eq_getElem hu
            have hu' : u < C.nets.length := by rw [hs.count]; exact hu
            have hTu : C.nets[u]? = some C.nets[u] := List.getElem?_eq_getElem hu'
            have hsu := hs.stored u _ _ hNu hTu
            have hfine : Fine Ns pos level t q stack tp { s with weight := s.weight + a.weight } :=
              ⟨h.net, h.size, h.depth, h.calls, h.frames, h.valid, h.stacks, h.entries⟩
            obtain ⟨s2, L, e1, e2, e3⟩ := rtnCall_exact (ip := ip) hc hfine ⟨_, hNu, hsu.nonempty⟩ hsu.start ((hs.balanced u _ hNu).start) ⟨N, hN, hcl a ha⟩
              ((hs.balanced t N hN).other q hq a ha (.inl h0))
            refine ⟨s2, L.map (shift [] a.weight), e1, ?_, ?_⟩
            · exact Did.lift (p := []) e2 (by rw [List.append_nil]; rfl) h.size rfl rfl rfl rfl rfl e2.depth e2.entries e2.calls e2.more e2.stacks
            · intro x
              rw [mem_shift]
              constructor
              · rintro ⟨tape, v, g1, g2⟩
                rw [e3] at g1
                obtain ⟨m, g3, g4⟩ := g1
                refine .inr ⟨h0, u, hr, m, g3, v, ?_, by rw [g2]⟩
                rw [g2]; exact g4
              · rintro (⟨g, _⟩ | ⟨_, u', g1, m, g2, v, g3, g4⟩)
                · exact absurd g h0
                · rw [hr] at g1
                  injection g1 with g1
                  rw [← g1] at g3
                  refine ⟨x.2.1, v, (e3 _).mpr ⟨m, g2, g3⟩, ?_⟩
                  rw [← g4, List.nil_append]
      have more : ∀ X : Outcome State, (∃ s2 L, X = .ok s2 ∧ Did C L tp s { s2 with weight := s.weight } ∧
          ∀ x : Hit, x ∈ L ↔ ViaFree C Ns d t stack ip a x) → ∃ s' L, (X.bind fun s2 =>
            takeEpsilons C call T t ip tp n (i + 1) { s2 with weight := s.weight }) = .ok s' ∧ Did C L tp s s' ∧
          ∀ x : Hit, x ∈ L ↔ Via (ViaFree C Ns d t stack ip) (a :: l) x := by
        rintro X ⟨s2, L, e1, e2, e3⟩
        rw [e1]
        dsimp only [Outcome.bind]
        rw [List.length_cons] at hn
        obtain ⟨s', L', f1, f2, f3⟩ := takeEpsilons_exact hs hc (ip := ip) hN hT l n (i + 1) { s2 with weight := s.weight }
          (fun b hb => hl b (List.mem_cons_of_mem _ hb)) he.tail (by omega) (h.after e2)
        refine ⟨s', L ++ L', f1, e2.trans f2, ?_⟩
        intro x
        rw [List.mem_append, e3, f3]
        exact via_cons.symm
      exact more _ step

/-! ## Transitions that read a symbol -/

/-- The matches that begin with the transition `a`, which reads `c`. -/
def ViaSymbol (C : Config) (Ns : List Part) (d t : Nat) (stack : List (Nat × Nat)) (ip c : Nat) (a : NArc) (h : Hit) : Prop :=
  ∃ n < d, ∃ tape v, Run C.al Ns C.input n t a.target stack (ip + 1) h.1 tape v ∧ h.2 = (written C.al c a :: tape, a.weight + v)

theorem takeSymbol_exact (hs : Simple C Ns pos level) (hc : Exact C Ns pos level d call) {t q ip tp c : Nat} {stack : List (Nat × Nat)} {N : Part}
    (hN : Ns[t]? = some N) (hcl : ∀ a ∈ N.net.arcs q, a.target < N.net.size) {a : NArc} (ha : a ∈ N.net.arcs q) (h0 : ¬ Free C.al a.input)
    (hno : a.input ≠ noSymbol) (hin : C.input[ip]? = some c) {s : State} (h : Fine Ns pos level t q stack tp s) :
    ∃ s' L, takeSymbol C call t ip tp a.input a.output (pos t a.target) a.weight s = .ok s' ∧ Did C L tp s s' ∧
      ∀ x : Hit, x ∈ L ↔ ViaSymbol C Ns d t stack ip c a x := by
  have hq : q < N.net.size := by
    obtain ⟨N', h1, h2⟩ := h.net
    rw [hN] at h1
    injection h1 with h1
    rw [h1]; exact h2
  have hent := h.entries
  obtain ⟨⟨l, hl⟩, _⟩ := hs.outputs t N hN q hq a ha
  have hlev := (hs.balanced t N hN).other q hq a ha (.inl fun h => h0 (.inl h))
  unfold takeSymbol
  rw [hl, hin]
  dsimp only
  have hw : (if C.al.isMeta a.output = true ∨ l ≠ noSymbol then (c, c) else (a.input, a.output)) = written C.al c a := by
    unfold written
    rw [hl]
    rfl
  rw [hw]
  have hp : (written C.al c a).1 ≠ C.al.passthrough := by
    rw [hs.passthrough]
    unfold written
    split
    · exact (hs.symbols c (List.mem_of_getElem? hin)).1
    · exact hno
  rw [if_neg hp]
  obtain ⟨s2, L, e, hd, hL⟩ := hc t a.target stack (ip + 1) (tp + 1)
    { s with weight := s.weight + a.weight, tape := writeTape s.tape tp (written C.al c a) }
    ⟨⟨N, hN, hcl a ha⟩, by dsimp only; rw [write_length]; omega, h.depth, h.calls, h.frames, h.valid, h.stacks, by dsimp only; omega⟩
  rw [e]
  dsimp only [Outcome.bind]
  have hst : ∀ u, s2.stacks u ≠ [] := by
    intro u hu
    have := hd.stacks u
    rw [hu, List.length_nil] at this
    exact h.stacks u (List.length_eq_zero_iff.mp this.symm)
  obtain ⟨v, hv⟩ := top_some (hst t)
  rw [hv]
  dsimp only
  refine ⟨_, L.map (shift [written C.al c a] a.weight), rfl, ?_, ?_⟩
  · refine Did.lift (p := [written C.al c a]) hd (write_take h.size _) h.size rfl rfl rfl rfl rfl hd.depth hd.entries hd.calls hd.more ?_
    intro u
    exact (setTop_stacks s2 t _ (hst t) u).trans (hd.stacks u)
  · intro x
    rw [mem_shift]
    constructor
    · rintro ⟨tape, v, h1, h2⟩
      rw [hL] at h1
      obtain ⟨n, h3, h4⟩ := h1
      exact ⟨n, h3, tape, v, h4, h2⟩
    · rintro ⟨n, h3, tape, v, h4, h2⟩
      exact ⟨tape, v, (hL _).mpr ⟨n, h3, h4⟩, h2⟩

theorem takeLoop_exact (hs : Simple C Ns pos level) (hc : Exact C Ns pos level d call) {t q ip tp c x : Nat} {stack : List (Nat × Nat)} {N : Part}
    {T : Tables} (hN : Ns[t]? = some N) (hT : C.nets[t]? = some T) (hx : ¬ Free C.al x) (hno : x ≠ noSymbol) (hin : C.input[ip]? = some c) :
    ∀ (l : List NArc) (n i : Nat) (s : State),
      (∀ a ∈ l, a ∈ N.net.arcs q ∧ a.input = x) → Entries C.weightOf T (pos t) i l (fun t => t.input ≠ x) → l.length < n →
      Fine Ns pos level t q stack tp s →
      ∃ s' L, takeLoop C call T t x ip tp n i s = .ok s' ∧ Did C L tp s s' ∧ ∀ h : Hit, h ∈ L ↔ Via (ViaSymbol C Ns d t stack ip c) l h
  | _, 0, _, _, _, _, hn, _ => by omega
  | l, n + 1, i, s, hl, he, hn, h => by
    have hst := hs.stored t N T hN hT
    have hq : q < N.net.size := by
      obtain ⟨N', h1, h2⟩ := h.net
      rw [hN] at h1
      injection h1 with h1
      rw [h1]; exact h2
    have hsmall : ∀ {j : Nat} {e : Trans}, T.transitions[j]? = some e → ¬ targetStart ≤ j := by
      intro j e hj hle
      have := (List.getElem?_eq_some_iff.mp hj).1
      have := hst.size
      omega
    rw [takeLoop]
    match l, hl, he, hn with
    | [], hl, he, hn =>
      obtain ⟨e, h1, h2⟩ := he.2
      rw [List.length_nil, Nat.add_zero] at h1
      rw [if_neg (hsmall h1), h1]
      dsimp only
      rw [if_neg h2]
      refine ⟨s, [], by split <;> rfl, Did.refl h.size, fun x => ⟨fun hx => (by cases hx), fun ⟨a, ha, _⟩ => (by cases ha)⟩⟩
    | a :: l, hl, he, hn =>
      obtain ⟨e, h1, h2, h3, h4, h5⟩ := he.1 0 a rfl
      rw [Nat.add_zero] at h1
      obtain ⟨ha, hax⟩ := hl a (List.mem_cons_self ..)
      rw [if_neg (hsmall h1), h1]
      dsimp only
      rw [if_neg (by rw [h2, hax]; exact hno), if_pos (h2.trans hax), h3, h4, h5, ← hax]
      obtain ⟨s2, L, e1, e2, e3⟩ := takeSymbol_exact (tp := tp) hs hc hN (hst.closed q hq) ha (by rw [hax]; exact hx) (by rw [hax]; exact hno) hin h
      rw [e1]
      dsimp only [Outcome.bind]
      rw [List.length_cons] at hn
      obtain ⟨s', L', f1, f2, f3⟩ := takeLoop_exact hs hc (ip := ip) hN hT hx hno hin l n (i + 1) s2
        (fun b hb => hl b (List.mem_cons_of_mem _ hb)) he.tail (by omega) (h.after e2)
      rw [hax]
      refine ⟨s', L ++ L', f1, e2.trans f2, ?_⟩
      intro x
      rw [List.mem_append, e3, f3]
      exact via_cons.symm

/-! ## Finding the transitions in the tables -/

theorem free_block {al : PmAlphabet} {weightOf : Nat → Int} {looked : Nat → Prop} {N : Part} {T : Tables} {pos : Nat → Nat}
    (h : Stored al weightOf looked N T pos) (hno : al.rtn noSymbol = none) {q : Nat} (hq : q < N.net.size) :
    ∃ j l, tableIndex T (pos q + 1) 0 = .ok j ∧ (∀ a, a ∈ l ↔ a ∈ N.net.arcs q ∧ Free al a.input) ∧
      ((targetStart ≤ j ∧ l = []) ∨ Entries weightOf T pos j l fun t => ¬ Free al t.input) := by
  have hn : ¬ Free al noSymbol := by
    rintro (hf | hf)
    · cases hf
    · exact hf hno
  unfold tableIndex
  rcases h.placed q hq with hi | ht
  · rw [if_neg (by have := hi.low; omega)]
    obtain ⟨e, h1, h2⟩ := hi.free
    rw [h1]
    dsimp only
    rcases h2 with ⟨h2, h3⟩ | ⟨h2, h3, l, h4, h5⟩
    · rw [if_neg h2]
      refine ⟨_, [], rfl, ?_, .inl ⟨Nat.le_refl _, rfl⟩⟩
      intro a
      exact ⟨fun h => (by cases h), fun ⟨h, h'⟩ => absurd h' (h3 a h)⟩
    · rw [if_pos h2]
      exact ⟨_, l, rfl, h4, .inr h5⟩
  · have hhigh := ht.high
    rw [if_pos (by omega)]
    obtain ⟨l, h1, h2⟩ := ht.block
    have hj : pos q + 1 - targetStart = pos q - targetStart + 1 := by omega
    rcases ht.kind with hk | ⟨x, hx, hk⟩
    · refine ⟨_, l, rfl, ?_, .inr ⟨?_, ?_⟩⟩
      · intro a
        rw [h1]
        exact ⟨fun h => ⟨h, hk a h⟩, fun h => h.1⟩
      · rw [hj]; exact h2.1
      · obtain ⟨t, h3, h4⟩ := h2.2
        exact ⟨t, by rw [hj]; exact h3, by show ¬ Free al t.input; rw [h4]; exact hn⟩
    · refine ⟨_, [], rfl, ?_, .inr ⟨fun k a hk => (by cases hk), ?_⟩⟩
      · intro a
        refine ⟨fun h => (by cases h), fun ⟨h, h'⟩ => ?_⟩
        rw [hk a h] at h'
        exact absurd h' hx
      · rw [List.length_nil, Nat.add_zero, hj]
        match l, h1, h2 with
        | [], _, h2 =>
          obtain ⟨t, h3, h4⟩ := h2.2
          rw [List.length_nil, Nat.add_zero] at h3
          exact ⟨t, h3, by show ¬ Free al t.input; rw [h4]; exact hn⟩
        | a :: l, h1, h2 =>
          obtain ⟨t, h3, h4, _⟩ := h2.1 0 a rfl
          rw [Nat.add_zero] at h3
          refine ⟨t, h3, ?_⟩
          show ¬ Free al t.input
          rw [h4, hk a ((h1 a).mp (List.mem_cons_self ..))]
          exact hx

theorem symbol_block {al : PmAlphabet} {weightOf : Nat → Int} {looked : Nat → Prop} {N : Part} {T : Tables} {pos : Nat → Nat}
    (h : Stored al weightOf looked N T pos) {q x : Nat} (hq : q < N.net.size) (hlook : looked x) (hx : ¬ Free al x) (hno : x ≠ noSymbol) :
    ∃ j l, tableIndex T (pos q + 1) x = .ok j ∧ (∀ a, a ∈ l ↔ a ∈ N.net.arcs q ∧ a.input = x) ∧
      ((targetStart ≤ j ∧ l = []) ∨ Entries weightOf T pos j l fun t => t.input ≠ x) := by
  unfold tableIndex
  rcases h.placed q hq with hi | ht
  · rw [if_neg (by have := hi.low; omega)]
    obtain ⟨e, h1, h2⟩ := hi.symbol x hlook
    rw [h1]
    dsimp only
    rcases h2 with ⟨h2, h3⟩ | ⟨h2, h3, l, h4, h5⟩
    · rw [if_neg h2]
      refine ⟨_, [], rfl, ?_, .inl ⟨Nat.le_refl _, rfl⟩⟩
      intro a
      exact ⟨fun h => (by cases h), fun ⟨h, h'⟩ => absurd h' (h3 a h)⟩
    · rw [if_pos h2]
      exact ⟨_, l, rfl, h4, .inr h5⟩
  · have hhigh := ht.high
    rw [if_pos (by omega)]
    obtain ⟨l, h1, h2⟩ := ht.block
    have hj : pos q + 1 - targetStart = pos q - targetStart + 1 := by omega
    by_cases hk : ∀ a ∈ N.net.arcs q, a.input = x
    · refine ⟨_, l, rfl, ?_, .inr ⟨?_, ?_⟩⟩
      · intro a
        rw [h1]
        exact ⟨fun h => ⟨h, hk a h⟩, fun h => h.1⟩
      · rw [hj]; exact h2.1
      · obtain ⟨t, h3, h4⟩ := h2.2
        exact ⟨t, by rw [hj]; exact h3, by show t.input ≠ x; rw [h4]; exact fun h => hno h.symm⟩
    · have hne : ∀ a ∈ N.net.arcs q, a.input ≠ x := by
        intro a ha hax
        apply hk
        rcases ht.kind with hf | ⟨y, _, hy⟩
        · have := hf a ha
          rw [hax] at this
          exact absurd this hx
        · intro b hb
          rw [hy b hb, ← hy a ha, hax]
      refine ⟨_, [], rfl, ?_, .inr ⟨fun k a hk => (by cases hk), ?_⟩⟩
      · intro a
        exact ⟨fun h => (by cases h), fun ⟨h, h'⟩ => absurd h' (hne a h)⟩
      · rw [List.length_nil, Nat.add_zero, hj]
        match l, h1, h2 with
        | [], _, h2 =>
          obtain ⟨t, h3, h4⟩ := h2.2
          rw [List.length_nil, Nat.add_zero] at h3
          exact ⟨t, h3, by show t.input ≠ x; rw [h4]; exact fun h => hno h.symm⟩
        | a :: l, h1, h2 =>
          obtain ⟨t, h3, h4, _⟩ := h2.1 0 a rfl
          rw [Nat.add_zero] at h3
          refine ⟨t, h3, ?_⟩
          show t.input ≠ x
          rw [h4]
          exact hne a ((h1 a).mp (List.mem_cons_self ..))

theorem final_state {weightOf : Nat → Int} {looked : Nat → Prop} {N : Part} {T : Tables} {pos : Nat → Nat}
    (h : Stored C.al weightOf looked N T pos) (hw : weightOf = C.weightOf) {q : Nat} (hq : q < N.net.size) : finalAt C T (pos q) = .ok (N.net.final q) := by
  unfold finalAt
  rw [← hw]
  rcases h.placed q hq with hi | ht
  · rw [if_neg (by have := hi.low; omega)]
    obtain ⟨e, h1, h2⟩ := hi.state
    rw [h1]
    dsimp only
    rw [h2]
  · rw [if_pos ht.high]
    obtain ⟨e, h1, h2⟩ := ht.state
    rw [h1]
    dsimp only
    rw [h2]

theorem tried_exact (hs : Simple C Ns pos level) {T : Tables} {N : Part} (horig : T.orig = N.orig) {c : Nat} (hc : c ∈ C.input) :
    ∃ xs, tried C T c = .ok xs ∧ ∀ x, x ∈ xs ↔ Reads C.al N.orig c x := by
  obtain ⟨hcn, l, h1, h2⟩ := hs.symbols c hc
  have hlist : ∃ ls, listsAt C l = .ok ls ∧ ∀ x, x ∈ ls ↔ x ≠ noSymbol ∧ ∃ l xs, C.al.symbol2lists[c]? = some l ∧ l ≠ noSymbol ∧
      C.al.symbolLists[l]? = some xs ∧ x ∈ xs := by
    unfold listsAt
    by_cases hl : l = noSymbol
    · rw [if_pos hl]
      refine ⟨[], rfl, fun x => ⟨fun h => (by cases h), ?_⟩⟩
      rintro ⟨_, l', xs, h3, h4, _⟩
      rw [h1] at h3
      injection h3 with h3
      rw [← h3] at h4
      exact absurd hl h4
    · rw [if_neg hl]
      obtain ⟨xs, h3, h4⟩ := h2 hl
      rw [h3]
      refine ⟨xs, rfl, fun x => ⟨fun h => ⟨fun hx => h4 (hx ▸ h), l, xs, h1, hl, h3, h⟩, ?_⟩⟩
      rintro ⟨_, l', xs', g1, _, g2, g3⟩
      rw [h1] at g1
      injection g1 with g1
      rw [← g1, h3] at g2
      injection g2 with g2
      rw [g2]; exact g3
  obtain ⟨ls, hl1, hl2⟩ := hlist
  unfold tried
  rw [h1]
  dsimp only
  rw [hl1]
  dsimp only [Outcome.bind]
  refine ⟨_, rfl, ?_⟩
  intro x
  have hif : ∀ (p : Prop) [Decidable p] (y : Nat), x ∈ (if p then [y] else []) ↔ p ∧ x = y := by
    intro p _ y
    split
    · rename_i h
      rw [List.mem_singleton]
      exact ⟨fun e => ⟨h, e⟩, fun e => e.2⟩
    · rename_i h
      exact ⟨fun e => (by cases e), fun e => absurd e.1 h⟩
  have hlast : x ∈ (if c < T.orig then [c] else (if C.al.base.identity ≠ noSymbol then [C.al.base.identity] else []) ++
      (if C.al.base.unknown ≠ noSymbol then [C.al.base.unknown] else [])) ↔
      (c < N.orig ∧ x = c) ∨ (N.orig ≤ c ∧ x ≠ noSymbol ∧ (x = C.al.base.identity ∨ x = C.al.base.unknown)) := by
    rw [horig]
    split
    · rename_i h
      rw [List.mem_singleton]
      exact ⟨fun e => .inl ⟨h, e⟩, fun e => by rcases e with e | e; exact e.2; omega⟩
    · rename_i h
      rw [List.mem_append, hif, hif]
      constructor
      · rintro (⟨g1, g2⟩ | ⟨g1, g2⟩)
        · exact .inr ⟨by omega, by rw [g2]; exact g1, .inl g2⟩
        · exact .inr ⟨by omega, by rw [g2]; exact g1, .inr g2⟩
      · rintro (⟨g, _⟩ | ⟨_, g1, g2 | g2⟩)
        · exact absurd g h
        · exact .inl ⟨by rw [← g2]; exact g1, g2⟩
        · exact .inr ⟨by rw [← g2]; exact g1, g2⟩
  rw [List.mem_append, List.mem_append, List.mem_append, List.mem_append, List.mem_append, hl2, hif, hif, hif, hif, hlast]
  unfold Reads
  constructor
  · rintro (((((⟨g, g'⟩ | ⟨⟨g, g'⟩, rfl⟩) | ⟨⟨g, g'⟩, rfl⟩) | ⟨⟨g, g'⟩, rfl⟩) | ⟨⟨g, g'⟩, rfl⟩) | ⟨g, g'⟩ | ⟨g, g1, g2⟩)
    · exact ⟨g, .inl g'⟩
    · exact ⟨g, .inr (.inl ⟨rfl, g'⟩)⟩
    · exact ⟨g, .inr (.inr (.inl ⟨rfl, g'⟩))⟩
    · exact ⟨g, .inr (.inr (.inr (.inl ⟨rfl, g'⟩)))⟩
    · exact ⟨g, .inr (.inr (.inr (.inr (.inl ⟨rfl, g'⟩))))⟩
    · exact ⟨by rw [g']; exact hcn, .inr (.inr (.inr (.inr (.inr (.inl ⟨g, g'⟩)))))⟩
    · exact ⟨g1, .inr (.inr (.inr (.inr (.inr (.inr ⟨g, g2⟩)))))⟩
  · rintro ⟨g, g' | ⟨rfl, g'⟩ | ⟨rfl, g'⟩ | ⟨rfl, g'⟩ | ⟨rfl, g'⟩ | ⟨g1, g2⟩ | ⟨g1, g2⟩⟩
    · exact .inl (.inl (.inl (.inl (.inl ⟨g, g'⟩))))
    · exact .inl (.inl (.inl (.inl (.inr ⟨⟨g, g'⟩, rfl⟩))))
    · exact .inl (.inl (.inl (.inr ⟨⟨g, g'⟩, rfl⟩)))
    · exact .inl (.inl (.inr ⟨⟨g, g'⟩, rfl⟩))
    · exact .inl (.inr ⟨⟨g, g'⟩, rfl⟩)
    · exact .inr (.inl ⟨g1, g2⟩)
    · exact .inr (.inr ⟨g1, g, g2⟩)

theorem takeEach_exact (hs : Simple C Ns pos level) (hc : Exact C Ns pos level d call) {t q ip tp c : Nat} {stack : List (Nat × Nat)} {N : Part}
    {T : Tables} (hN : Ns[t]? = some N) (hT : C.nets[t]? = some T) (hin : C.input[ip]? = some c) :
    ∀ (xs : List Nat) (s : State), (∀ x ∈ xs, Reads C.al N.orig c x) → Fine Ns pos level t q stack tp s →
      ∃ s' L, takeEach C call T t ip tp (pos t q + 1) xs s = .ok s' ∧ Did C L tp s s' ∧
        ∀ h : Hit, h ∈ L ↔ ∃ a ∈ N.net.arcs q, a.input ∈ xs ∧ ViaSymbol C Ns d t stack ip c a h
  | [], s, _, h => ⟨s, [], rfl, Did.refl h.size, fun x => ⟨fun h => (by cases h), fun ⟨a, _, h, _⟩ => by cases h⟩⟩
  | x :: xs, s, hx, h => by
    have hst := hs.stored t N T hN hT
    have hq : q < N.net.size := by
      obtain ⟨N', h1, h2⟩ := h.net
      rw [hN] at h1
      injection h1 with h1
      rw [h1]; exact h2
    have hr := hx x (List.mem_cons_self ..)
    have hci := List.mem_of_getElem? hin
    have hfree := hs.looked N c x (List.mem_of_getElem? hN) hci hr
    obtain ⟨j, l, g1, g2, g3⟩ := symbol_block hst hq ⟨c, hci, hr⟩ hfree hr.1
    rw [takeEach]
    unfold takeTransitions
    rw [g1]
    dsimp only [Outcome.bind]
    have hloop : ∃ s' L, takeLoop C call T t x ip tp (T.transitions.length + 1) j s = .ok s' ∧ Did C L tp s s' ∧
        ∀ h : Hit, h ∈ L ↔ Via (ViaSymbol C Ns d t stack ip c) l h := by
      rcases g3 with ⟨g3, g4⟩ | g3
      · rw [takeLoop, if_pos g3, g4]
        exact ⟨s, [], rfl, Did.refl h.size, fun x => ⟨fun hx => (by cases hx), fun ⟨a, ha, _⟩ => (by cases ha)⟩⟩
      · refine takeLoop_exact hs hc hN hT hfree hr.1 hin l _ j s (fun a ha => (g2 a).mp ha) g3 ?_ h
        obtain ⟨e, he, _⟩ := g3.2
        have := (List.getElem?_eq_some_iff.mp he).1
        omega
    obtain ⟨s2, L, e1, e2, e3⟩ := hloop
    rw [e1]
    dsimp only
    obtain ⟨s', L', f1, f2, f3⟩ := takeEach_exact hs hc hN hT hin xs s2 (fun y hy => hx y (List.mem_cons_of_mem _ hy)) (h.after e2)
    refine ⟨s', L ++ L', f1, e2.trans f2, ?_⟩
    intro y
    rw [List.mem_append, e3, f3]
    constructor
    · rintro (⟨a, h1, h2⟩ | ⟨a, h1, h2, h3⟩)
      · obtain ⟨h3, h4⟩ := (g2 a).mp h1
        exact ⟨a, h3, by rw [h4]; exact List.mem_cons_self .., h2⟩
      · exact ⟨a, h1, List.mem_cons_of_mem _ h2, h3⟩
    · rintro ⟨a, h1, h2, h3⟩
      rcases List.mem_cons.mp h2 with h2 | h2
      · exact .inl ⟨a, (g2 a).mpr ⟨h1, h2⟩, h3⟩
      · exact .inr ⟨a, h1, h2, h3⟩

/-! ## Final states -/

/-- The matches that end in this state or go back to the caller from it. -/
def ViaFinal (C : Config) (Ns : List Part) (d : Nat) (f : Option Int) (stack : List (Nat × Nat)) (ip : Nat) (h : Hit) : Prop :=
  ∃ w, f = some w ∧ match stack with
    | [] => h = (ip, [], w)
    | (caller, target) :: st => ∃ n < d, ∃ v, Run C.al Ns C.input n caller target st ip h.1 h.2.1 v ∧ h.2.2 = w + v

theorem note_found {s : State} {tp ip : Nat} (hsize : tp ≤ s.tape.length) :
    ∃ s', (if C.locate = true then grabLocation ip tp s else noteAnalysis ip tp s) = .ok s' ∧
      s'.out = s.out.note C.locate (ip, s.tape.take tp, s.weight) ∧ s'.tape = s.tape ∧ s'.depth = s.depth ∧ s'.entries = s.entries ∧
      s'.calls = s.calls ∧ s'.stacks = s.stacks := by
  have hn : ¬ s.tape.length < tp := by omega
  unfold Out.note
  by_cases hm : C.locate = true
  · rw [if_pos hm, if_pos hm]
    unfold grabLocation
    by_cases h1 : s.found ≠ [] ∧ ip < s.bestPos
    · rw [if_pos h1, if_pos (show s.out.found ≠ [] ∧ ip < s.out.pos from h1)]
      exact ⟨s, rfl, rfl, rfl, rfl, rfl, rfl, rfl⟩
    · rw [if_neg h1, if_neg hn, if_neg (show ¬ (s.out.found ≠ [] ∧ ip < s.out.pos) from h1)]
      exact ⟨_, rfl, rfl, rfl, rfl, rfl, rfl, rfl⟩
  · rw [if_neg hm, if_neg hm]
    unfold noteAnalysis
    by_cases h1 : s.bestPos < ip ∨ (ip = s.bestPos ∧ s.weight < s.bestWeight)
    · rw [if_pos h1, if_neg hn, if_pos (show s.out.pos < ip ∨ (ip = s.out.pos ∧ s.weight < s.out.weight) from h1)]
      exact ⟨_, rfl, rfl, rfl, rfl, rfl, rfl, rfl⟩
    · rw [if_neg h1, if_neg (show ¬ (s.out.pos < ip ∨ (ip = s.out.pos ∧ s.weight < s.out.weight)) from h1)]
      exact ⟨s, rfl, rfl, rfl, rfl, rfl, rfl, rfl⟩

theorem handleFinal_top {s : State} {ip tp : Nat} (h : s.depth = 0) :
    handleFinal C call ip tp s = if C.locate = true then grabLocation ip tp s else noteAnalysis ip tp s := by
  unfold handleFinal
  rw [h]

theorem handleFinal_back {s : State} {ip tp k caller target : Nat} {fs : List (Nat × Nat)} (h : s.depth = k + 1)
    (hc : (s.calls[k]?).getD [] = (caller, target) :: fs) :
    handleFinal C call ip tp s = (call caller ip tp target { s with depth := k }).bind fun s => .ok { s with depth := s.depth + 1 } := by
  unfold handleFinal
  rw [h]
  dsimp only
  rw [hc]

theorem finish_exact (hc : Exact C Ns pos level d call) {t q ip tp : Nat} {stack : List (Nat × Nat)} {s : State} (f : Option Int)
    (h : Fine Ns pos level t q stack tp s) :
    ∃ s' L, finish C call f ip tp s = .ok s' ∧ Did C L tp s s' ∧ ∀ x : Hit, x ∈ L ↔ ViaFinal C Ns d f stack ip x := by
  match f with
  | none => exact ⟨s, [], rfl, Did.refl h.size, fun x => ⟨fun hx => (by cases hx), fun ⟨w, hw, _⟩ => (by cases hw)⟩⟩
  | some w =>
    unfold finish
    dsimp only
    match stack, h with
    | [], h =>
      rw [handleFinal_top (s := { s with weight := s.weight + w }) h.depth]
      obtain ⟨s', e, g1, g2, g3, g4, g5, g6⟩ := note_found (C := C) (s := { s with weight := s.weight + w }) (ip := ip) (tp := tp) h.size
      rw [e]
      dsimp only [Outcome.bind]
      refine ⟨_, [(ip, [], w)], rfl, ⟨?_, ?_, ?_, rfl, ?_, ?_, ?_, ?_, ?_⟩, ?_⟩
      · show s'.out = _
        rw [g1]
        show _ = Out.note C.locate s.out (shift (s.tape.take tp) s.weight (ip, [], w))
        unfold shift
        dsimp only
        rw [List.append_nil]
        rfl
      · dsimp only; rw [g2]
      · dsimp only; rw [g2]; exact h.size
      · dsimp only; rw [g3]
      · dsimp only; rw [g4]
      · dsimp only; rw [g5]; exact fun _ => rfl
      · dsimp only; rw [g5]; exact Nat.le_refl _
      · dsimp only; rw [g6]; exact fun _ => rfl
      · intro x
        rw [List.mem_singleton]
        exact ⟨fun hx => ⟨w, rfl, hx⟩, fun ⟨w', hw, hx⟩ => by injection hw with hw; rw [hw]; exact hx⟩
    | (caller, target) :: st, h =>
      have hf := h.frames.1
      match hh : (s.calls[st.length]?).getD [], hf with
      | [], hf => cases hf
      | fr :: frs, hf =>
        rw [List.head?_cons] at hf
        injection hf with hf
        rw [hf] at hh
        rw [handleFinal_back (s := { s with weight := s.weight + w }) h.depth hh]
        have hent := h.entries
        obtain ⟨s2, L, e, hd, hL⟩ := hc caller target st ip tp { s with weight := s.weight + w, depth := st.length }
          ⟨h.valid (caller, target) (List.mem_cons_self ..), h.size, rfl, by have := h.calls; rw [List.length_cons] at this; dsimp only; omega, h.frames.2,
            fun f hf => h.valid f (List.mem_cons_of_mem _ hf), h.stacks, by
              unfold levels at hent ⊢
              rw [List.map_cons, List.sum_cons] at hent
              dsimp only at hent ⊢
              omega⟩
        rw [e]
        dsimp only [Outcome.bind]
        refine ⟨_, L.map (shift [] w), rfl, ?_, ?_⟩
        · refine Did.lift (p := []) hd (by rw [List.append_nil]; rfl) h.size rfl rfl rfl rfl rfl ?_ hd.entries hd.calls hd.more hd.stacks
          show s2.depth + 1 = s.depth
          rw [hd.depth, h.depth]
          rfl
        · intro x
          rw [mem_shift]
          constructor
          · rintro ⟨tape, v, g1, g2⟩
            rw [hL] at g1
            obtain ⟨n, g3, g4⟩ := g1
            refine ⟨w, rfl, n, g3, v, ?_, by rw [g2]⟩
            rw [g2]; exact g4
          · rintro ⟨w', hw, n, g1, v, g2, g3⟩
            injection hw with hw
            rw [← hw] at g3
            refine ⟨x.2.1, v, (hL _).mpr ⟨n, g1, g2⟩, ?_⟩
            rw [← g3, List.nil_append]

/-- The search finds just the runs. -/
theorem getAnalyses_exact (hs : Simple C Ns pos level) : ∀ d, Exact C Ns pos level d (getAnalyses C d)
  | 0 => fun t q stack ip tp s h => ⟨s, [], rfl, Did.refl h.size, fun x => ⟨fun hx => (by cases hx), fun ⟨n, hn, _⟩ => (by omega)⟩⟩
  | d + 1 => by
    intro t q stack ip tp s h
    have hc := getAnalyses_exact hs d
    obtain ⟨N, hN, hq⟩ := h.net
    have ht : t < C.nets.length := by
      rw [hs.count]
      exact (List.getElem?_eq_some_iff.mp hN).1
    have hT : C.nets[t]? = some C.nets[t] := List.getElem?_eq_getElem ht
    generalize C.nets[t] = T at hT
    have hst := hs.stored t N T hN hT
    have hheavy : C.tooHeavy s.weight = false := by
      unfold Config.tooHeavy
      rw [hs.maxWeight]
    rw [getAnalyses, hheavy, if_neg (by simp), hT]
    obtain ⟨v, hv⟩ := top_some (h.stacks t)
    rw [hv]
    dsimp only
    obtain ⟨j, l, g1, g2, g3⟩ := free_block hst hs.none hq
    rw [g1]
    dsimp only [Outcome.bind]
    have hd0 : Did C [] tp s (s.setTop t { v with trap := true }) :=
      ⟨rfl, rfl, h.size, rfl, rfl, rfl, fun _ => rfl, Nat.le_refl _, setTop_stacks s t _ (h.stacks t)⟩
    have h1 := h.after hd0
    generalize s.setTop t { v with trap := true } = s1 at hd0 h1
    have heps : ∃ s' L, takeEpsilons C (getAnalyses C d) T t ip tp (T.transitions.length + 1) j s1 = .ok s' ∧ Did C L tp s1 s' ∧
        ∀ x : Hit, x ∈ L ↔ Via (ViaFree C Ns d t stack ip) l x := by
      rcases g3 with ⟨g3, g4⟩ | g3
      · rw [takeEpsilons, if_pos g3, g4]
        exact ⟨s1, [], rfl, Did.refl h1.size, fun x => ⟨fun hx => (by cases hx), fun ⟨a, ha, _⟩ => (by cases ha)⟩⟩
      · refine takeEpsilons_exact hs hc hN hT l _ j s1 (fun a ha => (g2 a).mp ha) g3 ?_ h1
        obtain ⟨e, he, _⟩ := g3.2
        have := (List.getElem?_eq_some_iff.mp he).1
        omega
    obtain ⟨s2, L2, e2, d2, m2⟩ := heps
    rw [e2]
    dsimp only
    rw [final_state hst rfl hq]
    dsimp only
    have h2 := h1.after d2
    obtain ⟨s3, L3, e3, d3, m3⟩ := finish_exact (ip := ip) hc (N.net.final q) h2
    rw [e3]
    dsimp only
    have h3 := h2.after d3
    have d03 := hd0.trans (d2.trans d3)
    rw [List.nil_append] at d03
    -- the matches so far
    have hbefore : ∀ x : Hit, x ∈ L2 ++ L3 → ∃ n < d + 1, Run C.al Ns C.input n t q stack ip x.1 x.2.1 x.2.2 := by
      intro x hx
      rcases List.mem_append.mp hx with hx | hx
      · rw [m2] at hx
        obtain ⟨a, ha, hx⟩ := hx
        obtain ⟨ha, hfree⟩ := (g2 a).mp ha
        rcases hx with ⟨i1, n, i2, tape, w, i3, i4⟩ | ⟨i1, u, i2, n, i3, w, i4, i5⟩
        · refine ⟨n + 1, by omega, ?_⟩
          rw [i4]
          exact .epsilon hN ha i1 i3
        · refine ⟨n + 1, by omega, ?_⟩
          rw [i5]
          exact .call hN ha i1 i2 i4
      · rw [m3] at hx
        obtain ⟨w, hw, hx⟩ := hx
        match stack, hx with
        | [], hx =>
          rw [hx]
          exact ⟨0, by omega, .stop hN hw⟩
        | (caller, target) :: st, ⟨n, i1, v, i2, i3⟩ =>
          rw [i3]
          exact ⟨n + 1, by omega, .back hN hw i2⟩
    have hafter : ∀ (n : Nat) (x : Hit), n < d + 1 → Run C.al Ns C.input n t q stack ip x.1 x.2.1 x.2.2 → x ∈ L2 ++ L3 ∨
        ∃ c, C.input[ip]? = some c ∧ ∃ a ∈ N.net.arcs q, Reads C.al N.orig c a.input ∧ ViaSymbol C Ns d t stack ip c a x := by
      rintro n ⟨jp, tape, w⟩ hn hrun
      dsimp only at hrun
      cases hrun with
      | stop k1 k2 =>
        rw [hN] at k1
        injection k1 with k1
        rw [← k1] at k2
        exact .inl (List.mem_append_right _ ((m3 _).mpr ⟨w, k2, rfl⟩))
      | back k1 k2 k3 =>
        rw [hN] at k1
        injection k1 with k1
        rw [← k1] at k2
        exact .inl (List.mem_append_right _ ((m3 _).mpr ⟨_, k2, _, by omega, _, k3, rfl⟩))
      | epsilon k1 k2 k3 k4 =>
        rw [hN] at k1
        injection k1 with k1
        rw [← k1] at k2
        exact .inl (List.mem_append_left _ ((m2 _).mpr ⟨_, (g2 _).mpr ⟨k2, .inl k3⟩, .inl ⟨k3, _, by omega, _, _, k4, rfl⟩⟩))
      | call k1 k2 k3 k4 k5 =>
        rw [hN] at k1
        injection k1 with k1
        rw [← k1] at k2
        exact .inl (List.mem_append_left _ ((m2 _).mpr ⟨_, (g2 _).mpr ⟨k2, .inr (by rw [k4]; simp)⟩, .inr ⟨k3, _, k4, _, by omega, _, k5, rfl⟩⟩))
      | read k1 k2 k3 k4 k5 =>
        rw [hN] at k1
        injection k1 with k1
        rw [← k1] at k2 k4
        exact .inr ⟨_, k3, _, k2, k4, _, by omega, _, _, k5, rfl⟩
    match hin : C.input[ip]? with
    | none =>
      refine ⟨s3, L2 ++ L3, rfl, d03, ?_⟩
      intro x
      refine ⟨hbefore x, ?_⟩
      rintro ⟨n, hn, hrun⟩
      rcases hafter n x hn hrun with hx | ⟨c, hx, _⟩
      · exact hx
      · rw [hin] at hx; cases hx
    | some c =>
      dsimp only
      obtain ⟨xs, e4, m4⟩ := tried_exact hs hst.orig (List.mem_of_getElem? hin)
      rw [e4]
      dsimp only
      obtain ⟨s5, L5, e5, d5, m5⟩ := takeEach_exact (tp := tp) (stack := stack) hs hc hN hT hin xs s3 (fun x hx => (m4 x).mp hx) h3
      rw [e5]
      dsimp only
      have h5 := h3.after d5
      obtain ⟨v', hv'⟩ := top_some (h5.stacks t)
      rw [hv']
      dsimp only
      rw [if_neg (by rw [hs.default]; simp)]
      refine ⟨s5, L2 ++ L3 ++ L5, rfl, d03.trans d5, ?_⟩
      intro x
      rw [List.mem_append]
      constructor
      · rintro (hx | hx)
        · exact hbefore x hx
        · obtain ⟨a, i1, i2, n, i3, tape, w, i4, i5⟩ := (m5 x).mp hx
          refine ⟨n + 1, by omega, ?_⟩
          rw [i5]
          exact .read hN i1 hin ((m4 _).mp i2) i4
      · rintro ⟨n, hn, hrun⟩
        rcases hafter n x hn hrun with hx | ⟨c', hx, a, i1, i2, i3⟩
        · exact .inl hx
        · rw [hin] at hx
          injection hx with hx
          rw [← hx] at i2 i3
          exact .inr ((m5 x).mpr ⟨a, i1, (m4 _).mpr i2, i3⟩)

end

end Hfst.Pmatch
