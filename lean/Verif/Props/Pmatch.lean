import Verif.Spec.Pmatch
import Verif.Props.OlLookup
import Verif.Props.OlFile

/-!
# C63: matching keeps the input
-/
namespace Hfst.Pmatch
open Hfst.Basic Hfst.Ol

theorem write_length {tape : List (Nat × Nat)} {pos : Nat} (p : Nat × Nat) : (writeTape tape pos p).length = max tape.length (pos + 1) := by
  unfold writeTape
  simp; omega

theorem inputsOf_append (a b : List (Nat × Nat)) : inputsOf (a ++ b) = inputsOf a ++ inputsOf b := by
  unfold inputsOf
  rw [List.map_append, List.filter_append]

/-- The part of the input from `i` to `j`. -/
def slice (input : List Nat) (i j : Nat) : List Nat := (input.drop i).take (j - i)

theorem slice_self (input : List Nat) (i : Nat) : slice input i i = [] := by
  unfold slice
  rw [Nat.sub_self, List.take_zero]

theorem slice_append {input : List Nat} {i j k : Nat} (h1 : i ≤ j) (h2 : j ≤ k) :
    slice input i j ++ slice input j k = slice input i k := by
  unfold slice
  have : k - i = (j - i) + (k - j) := by omega
  rw [this, List.take_add, List.drop_drop]
  congr 3
  omega

theorem slice_one {input : List Nat} {i c : Nat} (h : input[i]? = some c) : slice input i (i + 1) = [c] := by
  unfold slice
  have : i + 1 - i = 1 := by omega
  rw [this]
  have := (List.getElem?_eq_some_iff.mp h)
  obtain ⟨h1, h2⟩ := this
  rw [List.drop_eq_getElem_cons h1, List.take_succ_cons, List.take_zero, h2]

theorem slice_zero (input : List Nat) (j : Nat) : slice input 0 j = input.take j := by
  unfold slice
  rw [List.drop_zero, Nat.sub_zero]

theorem slice_mem {input : List Nat} {i j x : Nat} (h : x ∈ slice input i j) : x ∈ input :=
  List.mem_of_mem_drop (List.mem_of_mem_take h)

/-- What the transitions and the input are good for: each pair that is written has the property `Q`. -/
structure Rule (C : Config) (Q : Nat × Nat → Prop) : Prop where
  nonzero : 0 ∉ C.input
  same : ∀ c ∈ C.input, Q (c, c)
  free : ∀ T ∈ C.nets, ∀ e ∈ T.transitions, e.input = 0 → Q (0, e.output)
  plain : ∀ T ∈ C.nets, ∀ e ∈ T.transitions, e.input ∈ C.input → C.al.isMeta e.output = false →
    C.al.list2symbols[e.output]? = some noSymbol → Q (e.input, e.output)
  generic : ∀ T ∈ C.nets, ∀ e ∈ T.transitions, e.input ≠ noSymbol → Generic C.al e.input →
    C.al.isMeta e.output = true ∨ ∃ l, C.al.list2symbols[e.output]? = some l ∧ l ≠ noSymbol

/-- The tape has the input `ks` and good pairs. -/
def Holds (Q : Nat × Nat → Prop) (tape : List (Nat × Nat)) (ks : List Nat) : Prop := inputsOf tape = ks ∧ ∀ p ∈ tape, Q p

/-- What was found so far is good. -/
structure BestOK (C : Config) (Q : Nat × Nat → Prop) (start : Nat) (s : State) : Prop where
  result : s.bestResult ≠ [] → C.locate = false ∧ start ≤ s.bestPos ∧ s.bestPos ≤ C.input.length ∧ Holds Q s.bestResult (slice C.input start s.bestPos)
  found : s.found ≠ [] → C.locate = true ∧ start ≤ s.bestPos ∧ s.bestPos ≤ C.input.length ∧
    ∀ f ∈ s.found, Holds Q f.1 (slice C.input start s.bestPos)

/-- What holds before a call. -/
structure Pre (C : Config) (Q : Nat × Nat → Prop) (start ip tp : Nat) (s : State) : Prop where
  low : start ≤ ip
  high : ip ≤ C.input.length
  size : tp ≤ s.tape.length
  tape : Holds Q (s.tape.take tp) (slice C.input start ip)
  best : BestOK C Q start s

/-- What holds after a call. -/
structure Post (C : Config) (Q : Nat × Nat → Prop) (start tp : Nat) (s s' : State) : Prop where
  tape : s'.tape.take tp = s.tape.take tp
  size : tp ≤ s'.tape.length
  best : BestOK C Q start s'

/-- The two states agree in what matters for the tape and the results. -/
def Same (s s' : State) : Prop :=
  s'.tape = s.tape ∧ s'.bestResult = s.bestResult ∧ s'.bestPos = s.bestPos ∧ s'.found = s.found

theorem Same.refl (s : State) : Same s s := ⟨rfl, rfl, rfl, rfl⟩

theorem BestOK.of {C : Config} {Q : Nat × Nat → Prop} {start : Nat} {s s' : State} (h : BestOK C Q start s)
    (h2 : s'.bestResult = s.bestResult) (h3 : s'.bestPos = s.bestPos) (h4 : s'.found = s.found) : BestOK C Q start s' := by
  refine ⟨?_, ?_⟩
  · rw [h2, h3]; exact h.result
  · rw [h3, h4]; exact h.found

theorem BestOK.same {C : Config} {Q : Nat × Nat → Prop} {start : Nat} {s s' : State} (h : BestOK C Q start s) (hs : Same s s') :
    BestOK C Q start s' := h.of hs.2.1 hs.2.2.1 hs.2.2.2

theorem Pre.same {C : Config} {Q : Nat × Nat → Prop} {start ip tp : Nat} {s s' : State} (h : Pre C Q start ip tp s) (hs : Same s s') :
    Pre C Q start ip tp s' :=
  ⟨h.low, h.high, by rw [hs.1]; exact h.size, by rw [hs.1]; exact h.tape, h.best.same hs⟩

theorem Post.same {C : Config} {Q : Nat × Nat → Prop} {start tp : Nat} {s s' t t' : State} (h : Post C Q start tp s s') (hs : Same t s)
    (hs' : Same s' t') : Post C Q start tp t t' :=
  ⟨by rw [hs'.1, h.tape, hs.1], by rw [hs'.1]; exact h.size, h.best.same hs'⟩

theorem Pre.post {C : Config} {Q : Nat × Nat → Prop} {start ip tp : Nat} {s : State} (h : Pre C Q start ip tp s) : Post C Q start tp s s :=
  ⟨rfl, h.size, h.best⟩

theorem Pre.after {C : Config} {Q : Nat × Nat → Prop} {start ip tp : Nat} {s s' : State} (h : Pre C Q start ip tp s)
    (h' : Post C Q start tp s s') : Pre C Q start ip tp s' :=
  ⟨h.low, h.high, h'.size, by rw [h'.tape]; exact h.tape, h'.best⟩

theorem Post.trans {C : Config} {Q : Nat × Nat → Prop} {start tp : Nat} {s t u : State} (h : Post C Q start tp s t)
    (h' : Post C Q start tp t u) : Post C Q start tp s u :=
  ⟨h'.tape.trans h.tape, h'.size, h'.best⟩

/-- Writing a pair on the tape. -/
theorem Pre.write {C : Config} {Q : Nat × Nat → Prop} {start ip tp : Nat} {s s' : State} (h : Pre C Q start ip tp s) {p : Nat × Nat}
    (hp : Q p) {jp : Nat} (h1 : ip ≤ jp) (h2 : jp ≤ C.input.length) (hin : inputsOf [p] = slice C.input ip jp)
    (hs : Same { s with tape := writeTape s.tape tp p } s') : Pre C Q start jp (tp + 1) s' := by
  have hw : (writeTape s.tape tp p).take (tp + 1) = s.tape.take tp ++ [p] := write_take h.size p
  refine Pre.same ?_ hs
  refine ⟨by have := h.low; omega, h2, ?_, ?_, h.best.of rfl rfl rfl⟩
  · show tp + 1 ≤ (writeTape s.tape tp p).length
    rw [write_length]; omega
  · show Holds Q ((writeTape s.tape tp p).take (tp + 1)) _
    rw [hw]
    refine ⟨?_, ?_⟩
    · rw [inputsOf_append, h.tape.1, hin, slice_append h.low h1]
    · intro q hq
      rcases List.mem_append.mp hq with hq | hq
      · exact h.tape.2 q hq
      · rw [List.mem_singleton] at hq; rw [hq]; exact hp

theorem Post.unwrite {C : Config} {Q : Nat × Nat → Prop} {start tp : Nat} {s s' s'' : State} {p : Nat × Nat} (hsize : tp ≤ s.tape.length)
    (hs : s'.tape = writeTape s.tape tp p) (h : Post C Q start (tp + 1) s' s'') : Post C Q start tp s s'' := by
  refine ⟨?_, by have := h.size; omega, h.best⟩
  have := congrArg (List.take tp) h.tape
  rw [List.take_take, List.take_take, Nat.min_eq_left (by omega), hs, write_take' hsize] at this
  exact this

/-- The call keeps what was written and finds only good results. -/
def CallOK (C : Config) (Q : Nat × Nat → Prop) (start : Nat) (call : Call) : Prop :=
  ∀ t ip tp i s s', Pre C Q start ip tp s → call t ip tp i s = .ok s' → Post C Q start tp s s'

theorem pushCall_same (s : State) (f : Nat × Nat) : Same s (s.pushCall f) := by
  unfold State.pushCall
  split
  · exact ⟨rfl, rfl, rfl, rfl⟩
  · exact ⟨rfl, rfl, rfl, rfl⟩

variable {C : Config} {Q : Nat × Nat → Prop} {start : Nat} {call : Call}

theorem rtnCall_ok (hc : CallOK C Q start call) {t ip tp caller target : Nat} {s s' : State} (h : Pre C Q start ip tp s)
    (e : rtnCall C call t ip tp caller target s = .ok s') : Post C Q start tp s s' := by
  unfold rtnCall at e
  dsimp only at e
  have hp := pushCall_same s (caller, target)
  generalize s.pushCall (caller, target) = s1 at e hp
  match ht : s1.top t with
  | none => rw [ht] at e; cases e
  | some _ =>
    rw [ht] at e
    dsimp only at e
    rw [bind_ok] at e
    obtain ⟨s2, e2, e⟩ := e
    have h2 := hc _ _ _ _ _ _ (h.same (s' := State.push { s1 with depth := s1.depth + 1 } t ⟨.init C.al.fd.numFeatures, false⟩) hp) e2
    match hd : s2.depth with
    | 0 => rw [hd] at e; cases e
    | d + 1 =>
      rw [hd] at e
      injection e with e
      exact h2.same hp (by rw [← e]; exact ⟨rfl, rfl, rfl, rfl⟩)

theorem takeLocalFlag_ok (hc : CallOK C Q start call) {t ip tp target : Nat} {o : Flags.FdOperation} {old : Option (List Int)} {s s' : State}
    (h : Pre C Q start ip tp s) (e : takeLocalFlag C call t o old ip tp target s = .ok s') : Post C Q start tp s s' := by
  unfold takeLocalFlag at e
  match hl : s.top t with
  | none => rw [hl] at e; cases e
  | some l =>
    rw [hl] at e
    dsimp only at e
    match ha : l.flags.apply o with
    | none => rw [ha] at e; cases e
    | some (ok, fs) =>
      rw [ha] at e
      dsimp only at e
      rw [bind_ok] at e
      obtain ⟨s2, e2, e⟩ := e
      have hp : Post C Q start tp s s2 := by
        have hsame : Same s (s.setTop t { l with flags := fs }) := ⟨rfl, rfl, rfl, rfl⟩
        split at e2
        · exact (hc _ _ _ _ _ _ (h.same hsame) e2).same hsame (Same.refl _)
        · injection e2 with e2
          exact h.post.same (Same.refl _) (by rw [← e2]; exact hsame)
      match ht : s2.top t with
      | none => rw [ht] at e; cases e
      | some l' =>
        rw [ht] at e
        match old, e with
        | none, e =>
          injection e with e
          exact hp.same (Same.refl _) (by rw [← e]; exact ⟨rfl, rfl, rfl, rfl⟩)
        | some vs, e =>
          injection e with e
          exact hp.same (Same.refl _) (by rw [← e]; exact ⟨rfl, rfl, rfl, rfl⟩)

theorem takeFlag_ok (hc : CallOK C Q start call) {t x ip tp target : Nat} {s s' : State} (h : Pre C Q start ip tp s)
    (e : takeFlag C call t x ip tp target s = .ok s') : Post C Q start tp s s' := by
  unfold takeFlag at e
  match h1 : C.al.fd.getOperation x, h2 : C.al.globalFlags[x]? with
  | none, _ => rw [h1] at e; cases e
  | some _, none => rw [h1, h2] at e; cases e
  | some o, some false =>
    rw [h1, h2] at e
    exact takeLocalFlag_ok hc h e
  | some o, some true =>
    rw [h1, h2] at e
    dsimp only at e
    match ha : s.globals.apply o with
    | none => rw [ha] at e; cases e
    | some (false, fs) =>
      rw [ha] at e
      injection e with e
      exact h.post.same (Same.refl _) (by rw [← e]; exact ⟨rfl, rfl, rfl, rfl⟩)
    | some (true, fs) =>
      rw [ha] at e
      have hsame : Same s { s with globals := fs } := ⟨rfl, rfl, rfl, rfl⟩
      exact (takeLocalFlag_ok hc (h.same hsame) e).same hsame (Same.refl _)

theorem matchesAt_ok {input : List Nat} {pos a b : Nat} (e : matchesAt input pos a b = .ok true) :
    a ≤ b ∧ pos + (b - a) ≤ input.length ∧ slice input a b = slice input pos (pos + (b - a)) := by
  unfold matchesAt at e
  split at e
  · cases e
  split at e
  · cases e
  injection e with e
  have := of_decide_eq_true e
  refine ⟨by omega, by omega, ?_⟩
  unfold slice
  rw [show pos + (b - a) - pos = b - a by omega]
  exact this.symm

theorem longestCapture_ok {input : List Nat} {key pos : Nat} : ∀ (cs : List Capture) (best r : Nat × Nat),
    (best.1 ≤ best.2 ∧ pos + (best.2 - best.1) ≤ input.length ∧ slice input best.1 best.2 = slice input pos (pos + (best.2 - best.1))) →
    longestCapture input key pos cs best = .ok r →
    r.1 ≤ r.2 ∧ pos + (r.2 - r.1) ≤ input.length ∧ slice input r.1 r.2 = slice input pos (pos + (r.2 - r.1))
  | [], best, r, h, e => by
    injection e with e
    rw [← e]; exact h
  | c :: cs, best, r, h, e => by
    rw [longestCapture] at e
    split at e
    · rw [bind_ok] at e
      obtain ⟨b, e1, e⟩ := e
      split at e
      · rename_i hb
        rw [hb.1] at e1
        exact longestCapture_ok cs _ r (matchesAt_ok e1) e
      · exact longestCapture_ok cs _ r h e
    · exact longestCapture_ok cs _ r h e

theorem writeAll_take : ∀ (ks : List Nat) (tape : List (Nat × Nat)) (pos : Nat), pos ≤ tape.length →
    (writeAll tape pos ks).take (pos + ks.length) = tape.take pos ++ ks.map (fun x => (x, x)) ∧ pos + ks.length ≤ (writeAll tape pos ks).length
  | [], tape, pos, h => by simp [writeAll, h]
  | x :: ks, tape, pos, h => by
    rw [writeAll]
    obtain ⟨h1, h2⟩ := writeAll_take ks (writeTape tape pos (x, x)) (pos + 1) (by rw [write_length]; omega)
    rw [write_take h] at h1
    rw [List.length_cons, show pos + (ks.length + 1) = pos + 1 + ks.length by omega]
    refine ⟨?_, h2⟩
    rw [h1, List.append_assoc]; rfl

theorem inputsOf_dup {ks : List Nat} (h : 0 ∉ ks) : inputsOf (ks.map fun x => (x, x)) = ks := by
  unfold inputsOf
  rw [List.map_map]
  have : ((fun x => x.1) ∘ fun x : Nat => (x, x)) = id := rfl
  rw [this, List.map_id, List.filter_eq_self]
  intro x hx
  apply decide_eq_true
  intro h0
  rw [h0] at hx; exact h hx

theorem takeEpsilon_ok (hr : Rule C Q) (hc : CallOK C Q start call) {t ip tp output target : Nat} {s s' : State}
    (h : Pre C Q start ip tp s) (hq : Q (0, output)) (e : takeEpsilon C call t ip tp output target s = .ok s') : Post C Q start tp s s' := by
  unfold takeEpsilon at e
  dsimp only at e
  have hw : ∀ {s1 : State}, Same { s with tape := writeTape s.tape tp (0, output) } s1 → Pre C Q start ip (tp + 1) s1 :=
    fun hs => h.write hq (Nat.le_refl _) h.high (by rw [slice_self]; rfl) hs
  have hafter : ∀ {s1 s2 s3 : State}, call t ip (tp + 1) target s1 = .ok s2 →
      Same { s with tape := writeTape s.tape tp (0, output) } s1 → Same s2 s3 → Post C Q start tp s s3 :=
    fun h2 h1 h3 => ((hc _ _ _ _ _ _ (hw h1) h2).unwrite h.size h1.1).same (Same.refl _) h3
  split at e
  · rw [bind_ok] at e
    obtain ⟨s2, e2, e⟩ := e
    injection e with e
    exact hafter e2 ⟨rfl, rfl, rfl, rfl⟩ (by rw [← e]; exact ⟨rfl, rfl, rfl, rfl⟩)
  split at e
  · match hs : s.entries with
    | [] => rw [hs] at e; cases e
    | x :: rest =>
      rw [hs] at e
      dsimp only at e
      rw [bind_ok] at e
      obtain ⟨s2, e2, e⟩ := e
      injection e with e
      exact hafter e2 ⟨rfl, rfl, rfl, rfl⟩ (by rw [← e]; exact ⟨rfl, rfl, rfl, rfl⟩)
  match h1 : C.al.capture2captured[output]?, h2 : C.al.captured2capture[output]? with
  | none, _ => rw [h1] at e; cases e
  | some _, none => rw [h1, h2] at e; cases e
  | some c, some d =>
    rw [h1, h2] at e
    dsimp only at e
    split at e
    · match hs : s.entries with
      | [] => rw [hs] at e; cases e
      | x :: rest =>
        rw [hs] at e
        dsimp only at e
        rw [bind_ok] at e
        obtain ⟨s2, e2, e⟩ := e
        injection e with e
        exact hafter e2 ⟨rfl, rfl, rfl, rfl⟩ (by rw [← e]; exact ⟨rfl, rfl, rfl, rfl⟩)
    split at e
    · rw [bind_ok] at e
      obtain ⟨b1, e1, e⟩ := e
      rw [bind_ok] at e
      obtain ⟨b2, e2, e⟩ := e
      have hb1 := longestCapture_ok _ _ _ ⟨Nat.le_refl _, by simpa using h.high, by rw [slice_self, Nat.sub_self, Nat.add_zero, slice_self]⟩ e1
      obtain ⟨g1, g2, g3⟩ := longestCapture_ok _ _ _ hb1 e2
      split at e
      · rename_i hne
        have hlen : (slice C.input b2.1 b2.2).length = b2.2 - b2.1 := by
          rw [g3]
          unfold slice
          rw [List.length_take, List.length_drop]
          omega
        have hks : (C.input.drop b2.1).take (b2.2 - b2.1) = slice C.input b2.1 b2.2 := rfl
        rw [hks] at e
        have hsz : tp ≤ (writeTape s.tape tp (0, output)).length := by rw [write_length]; omega
        obtain ⟨w1, w2⟩ := writeAll_take (slice C.input b2.1 b2.2) (writeTape s.tape tp (0, output)) tp hsz
        rw [hlen, write_take' h.size] at w1
        rw [hlen] at w2
        have h0 : 0 ∉ slice C.input b2.1 b2.2 := fun hx => hr.nonzero (slice_mem hx)
        have hpre : Pre C Q start (ip + (b2.2 - b2.1)) (tp + (b2.2 - b2.1))
            { s with tape := writeAll (writeTape s.tape tp (0, output)) tp (slice C.input b2.1 b2.2) } := by
          refine ⟨by have := h.low; omega, g2, w2, ?_, h.best.of rfl rfl rfl⟩
          show Holds Q ((writeAll (writeTape s.tape tp (0, output)) tp (slice C.input b2.1 b2.2)).take _) _
          rw [w1]
          refine ⟨?_, ?_⟩
          · rw [inputsOf_append, h.tape.1, inputsOf_dup h0, g3, slice_append h.low (by omega)]
          · intro q hq
            rcases List.mem_append.mp hq with hq | hq
            · exact h.tape.2 q hq
            · obtain ⟨x, hx, rfl⟩ := List.mem_map.mp hq
              exact hr.same x (slice_mem hx)
        have hpost := hc _ _ _ _ _ _ hpre e
        refine ⟨?_, by have := hpost.size; omega, hpost.best⟩
        have := congrArg (List.take tp) hpost.tape
        rw [List.take_take, Nat.min_eq_left (by omega)] at this
        rw [this]
        show List.take tp (List.take _ (writeAll (writeTape s.tape tp (0, output)) tp (slice C.input b2.1 b2.2))) = _
        rw [w1, List.take_append_of_le_length (by rw [List.length_take]; have := h.size; omega), List.take_take, Nat.min_self]
      · injection e with e
        rw [← e]
        refine ⟨?_, ?_, h.best.of rfl rfl rfl⟩
        · exact write_take' h.size _
        · show tp ≤ (writeTape s.tape tp (0, output)).length
          rw [write_length]; omega
    · exact hafter e ⟨rfl, rfl, rfl, rfl⟩ (Same.refl _)

theorem takeEpsilons_ok (hr : Rule C Q) (hc : CallOK C Q start call) {T : Tables} (hT : T ∈ C.nets) {t ip tp : Nat} :
    ∀ (n i : Nat) (s s' : State), Pre C Q start ip tp s → takeEpsilons C call T t ip tp n i s = .ok s' → Post C Q start tp s s'
  | 0, _, _, _, _, e => by cases e
  | n + 1, i, s, s', h, e => by
    rw [takeEpsilons] at e
    split at e
    · injection e with e
      rw [← e]; exact h.post
    match he : T.transitions[i]? with
    | none => rw [he] at e; cases e
    | some a =>
      rw [he] at e
      dsimp only at e
      split at e
      · injection e with e
        rw [← e]; exact h.post
      rw [bind_ok] at e
      obtain ⟨s2, e2, e⟩ := e
      have h1 : Pre C Q start ip tp { s with weight := s.weight + C.weightOf a.weight } := h.same ⟨rfl, rfl, rfl, rfl⟩
      have hp : Post C Q start tp s s2 := by
        refine Post.same (s := { s with weight := s.weight + C.weightOf a.weight }) (s' := s2) ?_ ⟨rfl, rfl, rfl, rfl⟩ (Same.refl _)
        split at e2
        · rename_i h0
          exact takeEpsilon_ok hr hc h1 (hr.free T hT a (List.mem_of_getElem? he) h0) e2
        split at e2
        · exact takeFlag_ok hc h1 e2
        split at e2
        · injection e2 with e2
          rw [← e2]; exact h1.post
        · exact rtnCall_ok hc h1 e2
      have hp' : Post C Q start tp s { s2 with weight := s.weight } := hp.same (Same.refl _) ⟨rfl, rfl, rfl, rfl⟩
      exact hp'.trans (takeEpsilons_ok hr hc hT n (i + 1) _ s' (h.after hp') e)

theorem takeSymbol_ok (hr : Rule C Q) (hc : CallOK C Q start call) {T : Tables} (hT : T ∈ C.nets) {t ip tp x target : Nat} {w : Int}
    {a : Trans} (ha : a ∈ T.transitions) (hx : a.input = x) (hne : a.input ≠ noSymbol) (hmay : C.input[ip]? = some x ∨ Generic C.al x) {s s' : State}
    (h : Pre C Q start ip tp s) (e : takeSymbol C call t ip tp x a.output target w s = .ok s') : Post C Q start tp s s' := by
  unfold takeSymbol at e
  match h1 : C.al.list2symbols[a.output]?, h2 : C.input[ip]? with
  | none, _ => rw [h1] at e; cases e
  | some _, none => rw [h1, h2] at e; cases e
  | some l, some c =>
    rw [h1, h2] at e
    dsimp only at e
    rw [bind_ok] at e
    obtain ⟨s2, e2, e⟩ := e
    have hcin : c ∈ C.input := List.mem_of_getElem? h2
    have hlt : ip < C.input.length := (List.getElem?_eq_some_iff.mp h2).1
    have hc0 : c ≠ 0 := fun h0 => hr.nonzero (by rw [← h0]; exact hcin)
    have hpair : ∃ o, (if C.al.isMeta a.output = true ∨ l ≠ noSymbol then (c, c) else (x, a.output)) = (c, o) ∧ Q (c, o) := by
      split
      · exact ⟨c, rfl, hr.same c hcin⟩
      · rename_i hm
        rcases hmay with hmay | hmay
        · rw [h2] at hmay
          injection hmay with hmay
          refine ⟨a.output, by rw [hmay], ?_⟩
          have := hr.plain T hT a ha (by rw [hx, ← hmay]; exact hcin)
            (by cases hb : C.al.isMeta a.output with
              | false => rfl
              | true => exact absurd (.inl hb) hm)
            (by rw [h1]; congr 1; exact Classical.not_not.mp fun hl => hm (.inr hl))
          rw [hx, ← hmay] at this
          exact this
        · rcases hr.generic T hT a ha hne (by rw [hx]; exact hmay) with hg | ⟨l', hg, hg'⟩
          · exact absurd (.inl hg) hm
          · rw [h1] at hg
            injection hg with hg
            exact absurd (.inr (by rw [hg]; exact hg')) hm
    obtain ⟨o, ho, hqo⟩ := hpair
    rw [ho] at e2
    have hp : Post C Q start tp s s2 := by
      split at e2
      · have hsame : Same s { s with weight := s.weight + w } := ⟨rfl, rfl, rfl, rfl⟩
        exact (hc _ _ _ _ _ _ (h.same hsame) e2).same hsame (Same.refl _)
      · have hw : Pre C Q start (ip + 1) (tp + 1) { s with weight := s.weight + w, tape := writeTape s.tape tp (c, o) } :=
          h.write hqo (by omega) (by omega) (by
            rw [slice_one h2]
            unfold inputsOf
            simp [hc0]) ⟨rfl, rfl, rfl, rfl⟩
        exact (hc _ _ _ _ _ _ hw e2).unwrite h.size rfl
    match ht : s2.top t with
    | none => rw [ht] at e; cases e
    | some v =>
      rw [ht] at e
      injection e with e
      exact hp.same (Same.refl _) (by rw [← e]; exact ⟨rfl, rfl, rfl, rfl⟩)

theorem takeLoop_ok (hr : Rule C Q) (hc : CallOK C Q start call) {T : Tables} (hT : T ∈ C.nets) {t ip tp x : Nat}
    (hmay : C.input[ip]? = some x ∨ Generic C.al x) :
    ∀ (n i : Nat) (s s' : State), Pre C Q start ip tp s → takeLoop C call T t x ip tp n i s = .ok s' → Post C Q start tp s s'
  | 0, _, _, _, _, e => by cases e
  | n + 1, i, s, s', h, e => by
    rw [takeLoop] at e
    split at e
    · injection e with e
      rw [← e]; exact h.post
    match he : T.transitions[i]? with
    | none => rw [he] at e; cases e
    | some a =>
      rw [he] at e
      dsimp only at e
      split at e
      · injection e with e
        rw [← e]; exact h.post
      rename_i hne
      split at e
      · rename_i hx
        rw [bind_ok] at e
        obtain ⟨s2, e2, e⟩ := e
        have hp := takeSymbol_ok hr hc hT (List.mem_of_getElem? he) hx hne hmay h e2
        exact hp.trans (takeLoop_ok hr hc hT hmay n (i + 1) s2 s' (h.after hp) e)
      · injection e with e
        rw [← e]; exact h.post

theorem takeTransitions_ok (hr : Rule C Q) (hc : CallOK C Q start call) {T : Tables} (hT : T ∈ C.nets) {t ip tp x i : Nat}
    (hmay : C.input[ip]? = some x ∨ Generic C.al x) {s s' : State} (h : Pre C Q start ip tp s)
    (e : takeTransitions C call T t x ip tp i s = .ok s') : Post C Q start tp s s' := by
  unfold takeTransitions at e
  rw [bind_ok] at e
  obtain ⟨j, _, e⟩ := e
  exact takeLoop_ok hr hc hT hmay _ _ _ _ h e

theorem takeEach_ok (hr : Rule C Q) (hc : CallOK C Q start call) {T : Tables} (hT : T ∈ C.nets) {t ip tp i : Nat} :
    ∀ (xs : List Nat) (s s' : State), (∀ x ∈ xs, C.input[ip]? = some x ∨ Generic C.al x) → Pre C Q start ip tp s →
      takeEach C call T t ip tp i xs s = .ok s' → Post C Q start tp s s'
  | [], s, s', _, h, e => by
    injection e with e
    rw [← e]; exact h.post
  | x :: xs, s, s', hx, h, e => by
    rw [takeEach, bind_ok] at e
    obtain ⟨s2, e2, e⟩ := e
    have hp := takeTransitions_ok hr hc hT (hx x (List.mem_cons_self ..)) h e2
    exact hp.trans (takeEach_ok hr hc hT xs s2 s' (fun y hy => hx y (List.mem_cons_of_mem _ hy)) (h.after hp) e)

theorem noteAnalysis_ok (hm : C.locate = false) {ip tp : Nat} {s s' : State} (h : Pre C Q start ip tp s)
    (e : noteAnalysis ip tp s = .ok s') : Post C Q start tp s s' := by
  unfold noteAnalysis at e
  split at e
  · split at e
    · cases e
    · injection e with e
      rw [← e]
      refine ⟨rfl, h.size, ⟨fun _ => ⟨hm, h.low, h.high, h.tape⟩, ?_⟩⟩
      intro hf
      have := (h.best.found hf).1
      rw [hm] at this; cases this
  · injection e with e
    rw [← e]; exact h.post

theorem grabLocation_ok (hm : C.locate = true) {ip tp : Nat} {s s' : State} (h : Pre C Q start ip tp s)
    (e : grabLocation ip tp s = .ok s') : Post C Q start tp s s' := by
  unfold grabLocation at e
  split at e
  · injection e with e
    rw [← e]; exact h.post
  rename_i hnot
  split at e
  · cases e
  injection e with e
  rw [← e]
  refine ⟨rfl, h.size, ⟨?_, fun _ => ⟨hm, h.low, h.high, ?_⟩⟩⟩
  · intro hf
    have := (h.best.result hf).1
    rw [hm] at this; cases this
  · intro f hf
    rcases List.mem_append.mp hf with hf | hf
    · show Holds Q f.1 (slice C.input start ip)
      split at hf
      · cases hf
      · rename_i hne
        have hfne : s.found ≠ [] := List.ne_nil_of_mem hf
        have heq : s.bestPos = ip := by
          have h1 : ¬ ip < s.bestPos := fun hl => hnot ⟨hfne, hl⟩
          have h2 : ¬ s.bestPos < ip := fun hl => hne ⟨hfne, hl⟩
          omega
        rw [← heq]
        exact (h.best.found hfne).2.2.2 f hf
    · rw [List.mem_singleton] at hf
      rw [hf]; exact h.tape

theorem handleFinal_ok (hc : CallOK C Q start call) {ip tp : Nat} {s s' : State} (h : Pre C Q start ip tp s)
    (e : handleFinal C call ip tp s = .ok s') : Post C Q start tp s s' := by
  unfold handleFinal at e
  match hd : s.depth with
  | d + 1 =>
    rw [hd] at e
    dsimp only at e
    match hl : (s.calls[d]?).getD [] with
    | [] => rw [hl] at e; cases e
    | (caller, target) :: _ =>
      rw [hl] at e
      dsimp only at e
      rw [bind_ok] at e
      obtain ⟨s2, e2, e⟩ := e
      injection e with e
      have hsame : Same s { s with depth := d } := ⟨rfl, rfl, rfl, rfl⟩
      exact (hc _ _ _ _ _ _ (h.same hsame) e2).same hsame (by rw [← e]; exact ⟨rfl, rfl, rfl, rfl⟩)
  | 0 =>
    rw [hd] at e
    dsimp only at e
    split at e
    · rename_i hm
      exact grabLocation_ok hm h e
    · rename_i hm
      exact noteAnalysis_ok (by revert hm; cases C.locate <;> simp) h e

theorem finish_ok (hc : CallOK C Q start call) {f : Option Int} {ip tp : Nat} {s s' : State} (h : Pre C Q start ip tp s)
    (e : finish C call f ip tp s = .ok s') : Post C Q start tp s s' := by
  unfold finish at e
  match f, e with
  | none, e =>
    injection e with e
    rw [← e]; exact h.post
  | some w, e =>
    dsimp only at e
    rw [bind_ok] at e
    obtain ⟨s2, e2, e⟩ := e
    injection e with e
    have hsame : Same s { s with weight := s.weight + w } := ⟨rfl, rfl, rfl, rfl⟩
    exact (handleFinal_ok hc (h.same hsame) e2).same hsame (by rw [← e]; exact ⟨rfl, rfl, rfl, rfl⟩)

theorem tried_may {T : Tables} {ip c : Nat} (hin : C.input[ip]? = some c) {xs : List Nat} (e : tried C T c = .ok xs) :
    ∀ x ∈ xs, C.input[ip]? = some x ∨ Generic C.al x := by
  unfold tried at e
  match h1 : C.al.symbol2lists[c]? with
  | none => rw [h1] at e; cases e
  | some l =>
    rw [h1] at e
    dsimp only at e
    rw [bind_ok] at e
    obtain ⟨ls, e1, e⟩ := e
    injection e with e
    intro x hx
    rw [← e] at hx
    have hls : x ∈ ls → Generic C.al x := by
      intro hxl
      unfold listsAt at e1
      split at e1
      · injection e1 with e1
        rw [← e1] at hxl; cases hxl
      · match h2 : C.al.symbolLists[l]? with
        | none => rw [h2] at e1; cases e1
        | some ys =>
          rw [h2] at e1
          injection e1 with e1
          rw [← e1] at hxl
          exact .inr (.inr (.inr (.inr (.inr (.inr (.inr (.inr ⟨ys, List.mem_of_getElem? h2, hxl⟩)))))))
    simp only [List.mem_append] at hx
    rcases hx with ((((hx | hx) | hx) | hx) | hx) | hx
    · exact .inr (hls hx)
    · split at hx
      · rw [List.mem_singleton] at hx; exact .inr (.inl hx)
      · cases hx
    · split at hx
      · rw [List.mem_singleton] at hx; exact .inr (.inr (.inl hx))
      · cases hx
    · split at hx
      · rw [List.mem_singleton] at hx; exact .inr (.inr (.inr (.inl hx)))
      · cases hx
    · split at hx
      · rw [List.mem_singleton] at hx; exact .inr (.inr (.inr (.inr (.inl hx))))
      · cases hx
    · split at hx
      · rw [List.mem_singleton] at hx; rw [hx]; exact .inl hin
      · rcases List.mem_append.mp hx with hx | hx
        · split at hx
          · rw [List.mem_singleton] at hx; exact .inr (.inr (.inr (.inr (.inr (.inl hx)))))
          · cases hx
        · split at hx
          · rw [List.mem_singleton] at hx; exact .inr (.inr (.inr (.inr (.inr (.inr (.inl hx))))))
          · cases hx

/-- Searching keeps the input. -/
theorem getAnalyses_ok (hr : Rule C Q) : ∀ d, CallOK C Q start (getAnalyses C d)
  | 0, _, _, _, _, s, s', h, e => by
    injection e with e
    rw [← e]; exact h.post
  | d + 1, t, ip, tp, i, s, s', h, e => by
    have ih : CallOK C Q start (getAnalyses C d) := getAnalyses_ok hr d
    rw [getAnalyses] at e
    split at e
    · injection e with e
      rw [← e]; exact h.post
    match h1 : C.nets[t]?, h2 : s.top t with
    | none, _ => rw [h1] at e; cases e
    | some _, none => rw [h1, h2] at e; cases e
    | some T, some v =>
      rw [h1, h2] at e
      have hT : T ∈ C.nets := List.mem_of_getElem? h1
      dsimp only at e
      rw [bind_ok] at e
      obtain ⟨j, _, e⟩ := e
      rw [bind_ok] at e
      obtain ⟨s1, e1, e⟩ := e
      have hsame : Same s (s.setTop t { v with trap := true }) := ⟨rfl, rfl, rfl, rfl⟩
      have p1 : Post C Q start tp s s1 := (takeEpsilons_ok hr ih hT _ _ _ _ (h.same hsame) e1).same hsame (Same.refl _)
      rw [bind_ok] at e
      obtain ⟨f, _, e⟩ := e
      rw [bind_ok] at e
      obtain ⟨s2, e2, e⟩ := e
      have p2 : Post C Q start tp s s2 := p1.trans (finish_ok ih (h.after p1) e2)
      match hin : C.input[ip]? with
      | none =>
        rw [hin] at e
        injection e with e
        rw [← e]; exact p2
      | some c =>
        rw [hin] at e
        dsimp only at e
        rw [bind_ok] at e
        obtain ⟨xs, ex, e⟩ := e
        rw [bind_ok] at e
        obtain ⟨s3, e3, e⟩ := e
        have p3 : Post C Q start tp s s3 := p2.trans (takeEach_ok hr ih hT _ _ _ (tried_may hin ex) (h.after p2) e3)
        match h3 : s3.top t with
        | none => rw [h3] at e; cases e
        | some v =>
          rw [h3] at e
          dsimp only at e
          split at e
          · exact p3.trans (takeTransitions_ok hr ih hT (.inr (.inr (.inr (.inr (.inr (.inr (.inr (.inl rfl)))))))) (h.after p3) e)
          · injection e with e
            rw [← e]; exact p3

end Hfst.Pmatch
