import Verif.Spec.SfstFile
import Verif.Lemmas.SfstMin
import Verif.Lemmas.SfstCopy
import Verif.Props.OlFile
import Verif.Model.SfstCmp
import Mathlib.Data.List.Basic
import Mathlib.Data.List.Nodup
import Mathlib.Data.List.Perm.Subperm

/-!
# C86: transducers of the SFST back-end in files
-/
namespace Hfst.Sfst
open Hfst.Basic (Outcome)
open Hfst.Ol (Bytes leBytes leNat length_leBytes leNat_leBytes)

/-! ## Numbers and strings -/

theorem readNumber_leBytes {k n : Nat} (h : n < 256 ^ k) (r : Bytes) : readNumber k (leBytes k n ++ r) = some (n, r) := by
  unfold readNumber
  have hl := length_leBytes k n
  rw [if_neg (by rw [List.length_append, hl]; omega), List.take_left' hl, List.drop_left' hl, leNat_leBytes k n h]

theorem fread_leBytes {k n : Nat} (h : n < 256 ^ k) (r : Bytes) : freadNumber k (leBytes k n ++ r) = .ok (n, r) := by
  unfold freadNumber; rw [readNumber_leBytes h]

theorem readUnchecked_leBytes {k n : Nat} (h : n < 256 ^ k) (r : Bytes) : readUnchecked k (leBytes k n ++ r) = .ok (n, r) := by
  unfold readUnchecked; rw [readNumber_leBytes h]

theorem fread_bool (b : Bool) (r : Bytes) :
    freadNumber 1 ([if b then 1 else 0] ++ r) = .ok (if b then 1 else 0, r) := by
  cases b <;> rfl

theorem takeWhile_string {x : Bytes} (h : 0 ∉ x) (r : Bytes) : (x ++ 0 :: r).takeWhile (fun c => c ≠ 0) = x := by
  induction x with
  | nil => simp
  | cons c x ih =>
    rw [List.cons_append, List.takeWhile_cons_of_pos, ih (fun hc => h (List.mem_cons_of_mem _ hc))]
    simpa using fun hc => h (by rw [hc]; exact List.mem_cons_self ..)

theorem readString_ok {x : Bytes} (h0 : 0 ∉ x) (hl : x.length < 100000) (r : Bytes) :
    readString (x ++ 0 :: r) = .ok (x, r) := by
  unfold readString
  simp only [takeWhile_string h0]
  rw [if_neg (by unfold bufferLength; omega), List.drop_left]

/-! ## The alphabet -/

theorem add_ok {a : Symbols} {c : Nat} {x : Bytes} (hc : ∀ y, (c, y) ∈ a.codes → y = x) (hx : ∀ d, (d, x) ∈ a.codes → d = c) :
    ∃ a', a.add x c = .ok a' ∧ a'.utf8 = a.utf8 ∧ a'.pairs = a.pairs ∧
      ∀ e, e ∈ a'.codes ↔ e ∈ a.codes ∨ e = (c, x) := by
  unfold Symbols.add
  cases h : a.codes.find? (fun e => e.2 = x) with
  | some e =>
    have h1 : e.2 = x := by simpa using List.find?_some h
    have h2 := List.mem_of_find?_eq_some h
    have h3 : e.1 = c := hx e.1 (by rw [← h1]; exact h2)
    refine ⟨a, by simp [h3], rfl, rfl, fun e' => ⟨Or.inl, ?_⟩⟩
    rintro (h' | rfl)
    · exact h'
    · rw [← h1, ← h3]; exact h2
  | none =>
    cases h' : a.codes.find? (fun e => e.1 = c) with
    | some e =>
      exfalso
      have h1 : e.1 = c := by simpa using List.find?_some h'
      have h2 := List.mem_of_find?_eq_some h'
      have h3 : e.2 = x := hc e.2 (by rw [← h1]; exact h2)
      have := List.find?_eq_none.1 h e h2
      simp [h3] at this
    | none =>
      exact ⟨_, rfl, rfl, rfl, fun e => by simp [List.mem_append]⟩

theorem readCodes_ok (L : List (Nat × Bytes)) (r : Bytes) :
    ∀ a : Symbols,
      (∀ c x y, (c, x) ∈ L ∨ (c, x) ∈ a.codes → (c, y) ∈ L ∨ (c, y) ∈ a.codes → x = y) →
      (∀ c d x, (c, x) ∈ L ∨ (c, x) ∈ a.codes → (d, x) ∈ L ∨ (d, x) ∈ a.codes → c = d) →
      (∀ c x, (c, x) ∈ L → x ≠ [] ∧ 0 ∉ x ∧ c < 256 ^ 2 ∧ x.length < 100000) →
      ∃ a', readCodes L.length a (L.flatMap (fun e => leBytes 2 e.1 ++ (e.2 ++ [0])) ++ r) = .ok (a', r) ∧
        a'.utf8 = a.utf8 ∧ a'.pairs = a.pairs ∧ ∀ e, e ∈ a'.codes ↔ e ∈ a.codes ∨ e ∈ L := by
  induction L with
  | nil => intro a _ _ _; exact ⟨a, rfl, rfl, rfl, fun e => by simp⟩
  | cons e L ih =>
    obtain ⟨c, x⟩ := e
    intro a h1 h2 h3
    obtain ⟨hne, h0, hc, hl⟩ := h3 c x (List.mem_cons_self ..)
    obtain ⟨a1, ha, hu, hp, hm⟩ := add_ok (a := a) (c := c) (x := x)
      (fun y hy => h1 c y x (Or.inr hy) (Or.inl (List.mem_cons_self ..)))
      (fun d hd => h2 d c x (Or.inr hd) (Or.inl (List.mem_cons_self ..)))
    have key : ∀ e, e ∈ L ∨ e ∈ a1.codes → e ∈ (c, x) :: L ∨ e ∈ a.codes := by
      intro e he
      rw [hm] at he
      rcases he with he | he | he
      · exact Or.inl (List.mem_cons_of_mem _ he)
      · exact Or.inr he
      · exact Or.inl (by rw [he]; exact List.mem_cons_self ..)
    obtain ⟨a', hr, hu', hp', hm'⟩ := ih a1 (fun c x y hx hy => h1 c x y (key _ hx) (key _ hy))
      (fun c d x hx hy => h2 c d x (key _ hx) (key _ hy)) (fun c x hx => h3 c x (List.mem_cons_of_mem _ hx))
    refine ⟨a', ?_, hu'.trans hu, hp'.trans hp, fun e => ?_⟩
    · rw [List.flatMap_cons, List.length_cons, readCodes]
      simp only [List.append_assoc]
      rw [readUnchecked_leBytes hc, Outcome.bind]
      simp only [List.singleton_append]
      rw [readString_ok h0 hl, Outcome.bind]
      simp only [if_neg hne]
      rw [ha, Outcome.bind]
      exact hr
    · rw [hm', hm, List.mem_cons, or_assoc]

theorem readPairs_ok (L : List Label) (r : Bytes) :
    ∀ a : Symbols, (∀ l ∈ L, l.lower < 256 ^ 2 ∧ l.upper < 256 ^ 2) →
      readPairs L.length a (L.flatMap (fun l => leBytes 2 l.lower ++ leBytes 2 l.upper) ++ r) =
        .ok ({ a with pairs := copyPairs a.pairs L }, r) := by
  induction L with
  | nil => intro a _; rfl
  | cons l L ih =>
    intro a h
    obtain ⟨h1, h2⟩ := h l (List.mem_cons_self ..)
    rw [List.flatMap_cons, List.length_cons, readPairs]
    simp only [List.append_assoc]
    rw [readUnchecked_leBytes h1, Outcome.bind]
    dsimp only
    rw [readUnchecked_leBytes h2, Outcome.bind]
    dsimp only
    rw [ih _ (fun l hl => h l (List.mem_cons_of_mem _ hl))]
    rfl

theorem symbols_ok {a : Symbols} (hp : a.Proper) (h1 : a.codes.length < 256 ^ 2)
    (h2 : ∀ c x, (c, x) ∈ a.codes → c < 256 ^ 2 ∧ x.length < 100000) (h3 : a.pairs.length < 256 ^ 2)
    (h4 : ∀ l ∈ a.pairs, l.lower < 256 ^ 2 ∧ l.upper < 256 ^ 2) (r : Bytes) :
    ∃ a', Symbols.new.read (a.store ++ r) = .ok (a', r) ∧ SameSymbols a a' := by
  have key : ∀ e, e ∈ a.codes ∨ e ∈ ({ Symbols.new with utf8 := a.utf8 } : Symbols).codes → e ∈ a.codes := by
    rintro e (h | h)
    · exact h
    · simp only [Symbols.new, List.mem_singleton] at h; rw [h]; exact hp.epsilon
  obtain ⟨a1, hr, hu, hpr, hm⟩ := readCodes_ok a.codes
    (leBytes 2 a.pairs.length ++ (a.pairs.flatMap (fun l => leBytes 2 l.lower ++ leBytes 2 l.upper) ++ r))
    { Symbols.new with utf8 := a.utf8 }
    (fun c x y hx hy => hp.code c x y (key _ hx) (key _ hy)) (fun c d x hx hy => hp.symbol c d x (key _ hx) (key _ hy))
    (fun c x hx => ⟨(hp.text c x hx).1, (hp.text c x hx).2, h2 c x hx⟩)
  refine ⟨{ a1 with pairs := copyPairs a1.pairs a.pairs }, ?_, ⟨hu, fun c x => ?_, fun l => ?_⟩⟩
  · unfold Symbols.store Symbols.read
    simp only [List.append_assoc, List.cons_append, List.nil_append]
    rw [readUnchecked_leBytes h1, Outcome.bind]
    have hb : decide ((if a.utf8 = true then (1 : UInt8) else 0) ≠ 0) = a.utf8 := by cases a.utf8 <;> rfl
    rw [hb]
    dsimp only
    rw [hr, Outcome.bind]
    dsimp only
    rw [readUnchecked_leBytes h3, Outcome.bind]
    dsimp only
    exact readPairs_ok _ _ _ h4
  · show (c, x) ∈ a1.codes ↔ _
    rw [hm]
    exact ⟨fun h => key _ h.symm, Or.inr⟩
  · show l ∈ copyPairs a1.pairs a.pairs ↔ _
    rw [mem_copyPairs, hpr]
    constructor
    · rintro (h | h)
      · cases h
      · exact h.1
    · intro h
      exact Or.inr ⟨h, fun e => hp.pair (e ▸ h)⟩

/-! ## The nodes -/

/-- What the walks need: the nodes in `U` are numbered and all that is reached from them is in `U`. -/
structure Ready (g : Graph) (ns U : List Nat) : Prop where
  sub : ∀ x ∈ U, x ∈ ns
  closed : ∀ x ∈ U, ∀ a ∈ (g.node x).iter, a.2 ∈ U
  arcs : ∀ x ∈ U, (g.node x).iter.length < 256 ^ 2
  labels : ∀ x ∈ U, ∀ a ∈ (g.node x).iter, a.1.lower < 256 ^ 2 ∧ a.1.upper < 256 ^ 2
  count : ns.length < 256 ^ 4

/-- The visited nodes are those with a new node. -/
def Known (U seen : List Nat) (b : Build Nat) : Prop := ∀ x ∈ U, (x ∈ seen ↔ b.map x ≠ none)

/-- The array of new nodes at the numbers of the old nodes. -/
def Placed (ns U : List Nat) (place : Nat → Option Nat) (b : Build Nat) : Prop := ∀ x ∈ U, place (ns.idxOf x) = b.map x

theorem placed_assign {ns U : List Nat} {place : Nat → Option Nat} {b : Build Nat} (hsub : ∀ x ∈ U, x ∈ ns)
    (h : Placed ns U place b) {k : Nat} (hk : k ∈ U) (m : Nat) (G : Graph) :
    Placed ns U (assign place (ns.idxOf k) m) ⟨G, assign b.map k m⟩ := by
  intro x hx
  by_cases e : x = k
  · subst e
    rw [assign_same]
    exact (assign_same _ _ _).symm
  · rw [assign_other (fun e' => e ((List.idxOf_inj (hsub x hx)).1 e'))]
    show place _ = assign b.map k m x
    rw [assign_other e]
    exact h x hx

/-- Writing and reading back the node `k` does what copying it does. -/
def NodeBack (g : Graph) (ns U : List Nat) (f : Nat) : Prop :=
  ∀ (k m : Nat) (b b' : Build Nat) (seen : List Nat) (F : Nat), f < F → k ∈ U →
    explore false (fun n => (g.node n).iter) (fun n => (g.node n).final) f k m b = some b' → k ∉ seen →
    (∀ x ∈ U, (x ∈ seen ∨ x = k ↔ b.map x ≠ none)) →
    ∃ (seen' : List Nat) (bytes : Bytes),
      (∀ out, storeNode g (indexOf ns) F k (seen, out) = .ok (seen', out ++ bytes)) ∧ Known U seen' b' ∧
      ∀ rest place, Placed ns U place b →
        ∃ place', readNode ns.length f m ⟨bytes ++ rest, place, b.graph⟩ = .ok ⟨rest, place', b'.graph⟩ ∧
          Placed ns U place' b'

theorem arcs_back {g : Graph} {ns U : List Nat} (H : Ready g ns U) {f : Nat} (ih : NodeBack g ns U f) {F : Nat} (hF : f < F) (m : Nat)
    (L : List (Label × Nat)) :
    ∀ (b b' : Build Nat) (seen : List Nat),
      (∀ a ∈ L, a.2 ∈ U ∧ a.1.lower < 256 ^ 2 ∧ a.1.upper < 256 ^ 2) →
      L.foldlM (linkArc false (explore false (fun n => (g.node n).iter) (fun n => (g.node n).final) f) m) b = some b' →
      Known U seen b →
      ∃ (seen' : List Nat) (bytes : Bytes),
        (∀ out, steps (storeArc (indexOf ns) (storeNode g (indexOf ns) F)) L (seen, out) = .ok (seen', out ++ bytes)) ∧
        Known U seen' b' ∧
        ∀ rest place, Placed ns U place b →
          ∃ place', readArcs ns.length (readNode ns.length f) m L.length ⟨bytes ++ rest, place, b.graph⟩ =
              .ok ⟨rest, place', b'.graph⟩ ∧ Placed ns U place' b' := by
  induction L with
  | nil =>
    intro b b' seen _ h hk
    cases h
    exact ⟨seen, [], fun out => by simp [steps], hk, fun rest place hp => ⟨place, rfl, hp⟩⟩
  | cons a L ihL =>
    obtain ⟨l, k⟩ := a
    intro b b' seen hL h hk
    obtain ⟨hU, hl1, hl2⟩ := hL (l, k) (List.mem_cons_self ..)
    have hns := H.sub k hU
    have hidx : ns.idxOf k < ns.length := List.idxOf_lt_length_iff.2 hns
    have h4 : ns.idxOf k < 256 ^ 4 := Nat.lt_trans hidx H.count
    have hi : indexOf ns k = some (ns.idxOf k) := by unfold indexOf; rw [if_pos hns]
    rw [List.foldlM_cons] at h
    obtain ⟨b1, h1, h2⟩ := Option.bind_eq_some_iff.1 h
    obtain ⟨F, rfl⟩ : ∃ F', F = F' + 1 := ⟨F - 1, by omega⟩
    have hL' : ∀ a ∈ L, a.2 ∈ U ∧ a.1.lower < 256 ^ 2 ∧ a.1.upper < 256 ^ 2 :=
      fun a ha => hL a (List.mem_cons_of_mem _ ha)
    cases hb : b.map k with
    | some q =>
      unfold linkArc at h1
      rw [hb] at h1
      cases h1
      obtain ⟨seen', bytes, hs, hk', hr⟩ := ihL _ b' seen hL' h2 hk
      have hin : k ∈ seen := (hk k hU).2 (by rw [hb]; simp)
      refine ⟨seen', leBytes 2 l.lower ++ (leBytes 2 l.upper ++ leBytes 4 (ns.idxOf k)) ++ bytes, fun out => ?_, hk', ?_⟩
      · rw [steps, storeArc]
        simp only [hi]
        rw [storeNode, if_pos hin, Outcome.bind, hs]
        simp only [List.append_assoc]
      · intro rest place hp
        obtain ⟨place', h3, h5⟩ := hr rest place hp
        refine ⟨place', ?_, h5⟩
        rw [List.length_cons, readArcs]
        simp only [List.append_assoc]
        rw [fread_leBytes hl1, Outcome.bind]
        dsimp only
        rw [fread_leBytes hl2, Outcome.bind]
        dsimp only
        rw [fread_leBytes h4, Outcome.bind]
        dsimp only
        rw [if_neg (by omega), hp k hU, hb]
        exact h3
    | none =>
      unfold linkArc at h1
      rw [hb] at h1
      simp only [Bool.false_eq_true, if_false] at h1
      have hnot : k ∉ seen := fun h => (hk k hU).1 h hb
      obtain ⟨seen1, bytes1, hs1, hk1, hr1⟩ := ih k _ _ b1 seen (F + 1) hF hU h1 hnot (fun x hx => by
        show _ ↔ assign b.map k _ x ≠ none
        by_cases e : x = k
        · subst e; rw [assign_same]; simp
        · rw [assign_other e, ← hk x hx]; simp [e])
      obtain ⟨seen', bytes, hs, hk', hr⟩ := ihL b1 b' seen1 hL' h2 hk1
      refine ⟨seen', leBytes 2 l.lower ++ (leBytes 2 l.upper ++ leBytes 4 (ns.idxOf k)) ++ (bytes1 ++ bytes), fun out => ?_, hk', ?_⟩
      · rw [steps, storeArc]
        simp only [hi]
        rw [hs1, Outcome.bind, hs]
        simp only [List.append_assoc]
      · intro rest place hp
        obtain ⟨place1, h3, h5⟩ := hr1 (bytes ++ rest) _ (placed_assign H.sub hp hU b.graph.size
          (b.graph.newNode.addArc m l b.graph.size))
        obtain ⟨place', h6, h7⟩ := hr rest place1 h5
        refine ⟨place', ?_, h7⟩
        rw [List.length_cons, readArcs]
        simp only [List.append_assoc]
        rw [fread_leBytes hl1, Outcome.bind]
        dsimp only
        rw [fread_leBytes hl2, Outcome.bind]
        dsimp only
        rw [fread_leBytes h4, Outcome.bind]
        dsimp only
        rw [if_neg (by omega), hp k hU, hb]
        dsimp only
        rw [h3, Outcome.bind]
        exact h6

theorem node_back {g : Graph} {ns U : List Nat} (H : Ready g ns U) (f : Nat) : NodeBack g ns U f := by
  induction f with
  | zero => intro k m b b' seen F _ _ h; cases h
  | succ f ih =>
    intro k m b b' seen F hF hU h hnot hk
    obtain ⟨F, rfl⟩ : ∃ F', F = F' + 1 := ⟨F - 1, by omega⟩
    rw [explore] at h
    obtain ⟨seen', bytes, hs, hk', hr⟩ := arcs_back H ih (F := F) (by omega) m _ _ b' (seen ++ [k])
      (fun a ha => ⟨H.closed k hU a ha, H.labels k hU a ha⟩) h (fun x hx => by
        rw [List.mem_append, List.mem_singleton]; exact hk x hx)
    have ha := H.arcs k hU
    refine ⟨seen', [if (g.node k).final then 1 else 0] ++ leBytes 2 (g.node k).iter.length ++ bytes, fun out => ?_, hk', ?_⟩
    · rw [storeNode, if_neg hnot, if_neg (by omega), hs]
      simp only [List.append_assoc]
    · intro rest place hp
      obtain ⟨place', h1, h2⟩ := hr rest place hp
      refine ⟨place', ?_, h2⟩
      rw [readNode]
      simp only [List.append_assoc]
      rw [fread_bool, Outcome.bind]
      dsimp only
      rw [fread_leBytes ha, Outcome.bind]
      have hb : decide ((if (g.node k).final = true then 1 else 0) ≠ 0) = (g.node k).final := by
        cases (g.node k).final <;> rfl
      rw [hb]
      exact h1

/-! ## The whole file -/

theorem visit_suffix {pre post : Nat → Node → Node} (f : Nat) :
    ∀ {n : Nat} {s s' : List Nat × Graph}, visit pre post f n s = some s' → s.1 <:+ s'.1 := by
  induction f with
  | zero => intro n s s' h; cases h
  | succ f ih =>
    intro n s s' h
    rw [visit] at h
    by_cases hn : n ∈ s.1
    · rw [if_pos hn] at h; cases h; exact List.suffix_refl _
    · rw [if_neg hn] at h
      obtain ⟨s1, h1, h2⟩ := Option.map_eq_some_iff.1 h
      rw [← h2]
      have key : ∀ (L : List (Label × Nat)) (s s' : List Nat × Graph),
          L.foldlM (fun s' arc => visit pre post f arc.2 s') s = some s' → s.1 <:+ s'.1 := by
        intro L
        induction L with
        | nil => intro s s' h; cases h; exact List.suffix_refl _
        | cons a L ihL =>
          intro s s' h
          rw [List.foldlM_cons] at h
          obtain ⟨s2, h3, h4⟩ := Option.bind_eq_some_iff.1 h
          exact (ih h3).trans (ihL _ _ h4)
      exact (List.suffix_cons n s.1).trans (key _ _ _ h1)

theorem nodeArray_head {g : Graph} {ns : List Nat} (h : nodeArray g = some ns) : ∃ l, ns = 0 :: l := by
  unfold nodeArray at h
  obtain ⟨s, h1, h2⟩ := Option.map_eq_some_iff.1 h
  rw [visit, if_neg (by simp)] at h1
  obtain ⟨s1, h3, h4⟩ := Option.map_eq_some_iff.1 h1
  have key : ∀ (L : List (Label × Nat)) (s s' : List Nat × Graph),
      L.foldlM (fun s' arc => visit (fun _ nd => nd) (fun _ nd => nd) g.size arc.2 s') s = some s' → s.1 <:+ s'.1 := by
    intro L
    induction L with
    | nil => intro s s' h; cases h; exact List.suffix_refl _
    | cons a L ihL =>
      intro s s' h
      rw [List.foldlM_cons] at h
      obtain ⟨s2, h3, h4⟩ := Option.bind_eq_some_iff.1 h
      exact (visit_suffix _ h3).trans (ihL _ _ h4)
  obtain ⟨t, ht⟩ := key _ _ _ h3
  rw [← h2, ← h4]
  dsimp only at ht ⊢
  rw [← ht]
  exact ⟨t.reverse, by simp⟩

theorem reach_step {g : Graph} {n m p : Nat} {l : Label} (h : g.Reach n m) (hs : g.Step m l p) : g.Reach n p := by
  induction h with
  | refl => exact .step hs .refl
  | step h1 _ ih => exact .step h1 (ih hs)

theorem iter_perm (nd : Node) : nd.iter.Perm nd.arcs := by
  unfold Node.iter Node.epsArcs Node.otherArcs
  exact List.filter_append_perm _ _

theorem reach_low {g : Graph} (hg : g.Closed) {n m : Nat} (h : g.Reach n m) : n < g.size → m < g.size := by
  induction h with
  | refl => exact id
  | step hs _ ih => exact fun hn => ih (hg.2 _ hn _ hs)

/-- **C86, files of the SFST back-end**: a transducer within the limits of the format, whose nodes were not numbered before or have good
numbers, can be stored, and what is read from the file is the same transducer up to the numbers of its nodes, without the nodes out of
reach, accepts the same, has the same symbols, and is taken for minimal and deterministic if and only if it was taken for both; and the
next transducer in the file is found. -/
theorem C86_roundtrip {t : Net} (hc : t.graph.Closed) (hf : t.Fits) (hs : t.symbols.Proper) (hn : t.Numbered) :
    ∃ bytes, t.store = .ok bytes ∧ ∀ rest, ∃ r, readNet t.minimal (bytes ++ rest) = .ok (r, rest) ∧
      (∃ φ, Renumbered t.graph r.graph φ) ∧ (∀ w, r.graph.Takes 0 w ↔ t.graph.Takes 0 w) ∧ SameSymbols t.symbols r.symbols ∧
      r.minimised = (t.minimised && t.deterministic) ∧ r.deterministic = (t.minimised && t.deterministic) := by
  classical
  obtain ⟨ns, hi, hnd, ⟨l0, hl0⟩, hlow, hall⟩ : ∃ ns, t.index = .ok ns ∧ ns.Nodup ∧ (∃ l, ns = 0 :: l) ∧
      (∀ n ∈ ns, n < t.graph.size) ∧ ∀ n, t.graph.Reach 0 n → n ∈ ns := by
    unfold Net.index
    cases ho : t.order with
    | some ns => exact ⟨ns, rfl, hn ns ho⟩
    | none =>
      obtain ⟨ns, h1, h2, h3⟩ := nodeArray_ok hc
      rw [h1]
      exact ⟨ns, rfl, h2, nodeArray_head h1, fun n hn => reach_low hc ((h3 n).1 hn) hc.1, fun n h => (h3 n).2 h⟩
  have hcount : ns.length ≤ t.graph.size := by
    have := (List.Nodup.subperm hnd (l₂ := List.range t.graph.size) (fun n hn => List.mem_range.2 (hlow n hn))).length_le
    rwa [List.length_range] at this
  let U := ns.filter (fun n => decide (t.graph.Reach 0 n))
  have hU : ∀ x, x ∈ U ↔ t.graph.Reach 0 x := by
    intro x
    rw [List.mem_filter, decide_eq_true_iff]
    exact ⟨fun h => h.2, fun h => ⟨hall x h, h⟩⟩
  have hlen : U.length ≤ ns.length := List.length_filter_le ..
  have hclosed : ∀ x ∈ U, ∀ a ∈ (t.graph.node x).iter, a.2 ∈ U := fun x hx a ha =>
    (hU _).2 (reach_step ((hU x).1 hx) (l := a.1) (mem_iter.1 ha))
  have H : Ready t.graph ns U :=
    ⟨fun x hx => hall x ((hU x).1 hx), hclosed,
     fun x hx => by rw [(iter_perm _).length_eq]; exact hf.arcs x ((hU x).1 hx),
     fun x hx a ha => hf.labels x ((hU x).1 hx) a (mem_iter.1 ha), Nat.lt_of_le_of_lt hcount hf.nodes⟩
  have h0 : (0 : Nat) ∈ U := (hU 0).2 .refl
  obtain ⟨b, hb, hB⟩ := explore_built (succ := fun n => (t.graph.node n).iter) (final := fun n => (t.graph.node n).final) false
    hclosed h0 (f := ns.length + 1) (by omega) (a := Graph.fresh) (n0 := 0) Nat.zero_lt_one rfl
  obtain ⟨seen', nodes, hst, _, hrd⟩ := node_back H (ns.length + 1) 0 0 _ b [] (t.graph.size + 2) (by omega) h0 hb (by simp)
    (fun x hx => by
      show _ ↔ assign (fun _ => none) 0 0 x ≠ none
      by_cases e : x = 0
      · subst e; rw [assign_same]; simp
      · rw [assign_other e]; simp [e])
  refine ⟨[97] ++ leBytes 4 ns.length ++ nodes ++ t.symbols.store, ?_, fun rest => ?_⟩
  · unfold Net.store
    rw [hi, Outcome.bind, hst, Outcome.bind]
  · obtain ⟨place', hr, _⟩ := hrd (t.symbols.store ++ rest) (assign (fun _ => none) 0 0) (fun x hx => by
      show _ = assign (fun _ => none) 0 0 x
      by_cases e : x = 0
      · subst e; rw [hl0, List.idxOf_cons_self]
      · rw [assign_other e, assign_other]
        intro e'
        rw [hl0, List.idxOf_cons_ne _ (fun h => e h.symm)] at e'
        cases e')
    obtain ⟨a', ha, hsame⟩ := symbols_ok hs hf.symbols hf.code hf.count hf.pair rest
    refine ⟨⟨b.graph, t.minimal, t.minimal, a', none⟩, ?_, ⟨fun n => (b.map n).getD 0, ?_⟩, ?_, hsame, rfl, rfl⟩
    · simp only [List.append_assoc, List.cons_append, List.nil_append]
      unfold readNet
      dsimp only
      rw [if_neg (by simp), fread_leBytes H.count, Outcome.bind]
      dsimp only
      rw [if_neg (by rw [hl0]; simp), hr, Outcome.bind]
      dsimp only
      rw [ha, Outcome.bind]
    · have hsucc : ∀ n m, KReach (fun n => (t.graph.node n).iter) n m → t.graph.Reach n m := by
        intro n m h
        induction h with
        | refl => exact .refl
        | step hs _ ih => exact .step (mem_iter.1 hs) ih
      have hmap : ∀ n m, t.graph.Reach n m → (∃ j, b.map n = some j) → ∃ j, b.map m = some j := by
        intro n m h
        induction h with
        | refl => exact id
        | step hs _ ih =>
          rintro ⟨j, hj⟩
          exact ih ((hB.done _ _ hj).has (mem_iter.2 hs))
      have hsome : ∀ n, t.graph.Reach 0 n → b.map n = some ((b.map n).getD 0) := by
        intro n h
        obtain ⟨j, hj⟩ := hmap 0 n h ⟨0, hB.root⟩
        rw [hj]; rfl
      refine ⟨by rw [hB.root]; rfl, fun n h => (hB.low n _ (hsome n h)).1, fun n m h h' e => ?_, fun j hj => ?_,
        fun n h => (hB.done n _ (hsome n h)).1, fun n h => ?_⟩
      · exact hB.inj n m _ (hsome n h) (by rw [e]; exact hsome m h')
      · obtain ⟨k, hk⟩ : ∃ k, b.map k = some j := by
          rcases Nat.eq_zero_or_pos j with rfl | hj0
          · exact ⟨0, hB.root⟩
          · exact hB.onto j hj0 hj
        exact ⟨k, hsucc _ _ (hB.reached k j hk), by rw [hk]; rfl⟩
      · have h1 := (hB.done n _ (hsome n h)).2
        have h2 : (t.graph.node n).iter.map (fun a => (a.1, b.map a.2)) =
            ((t.graph.node n).iter.map (fun a => (a.1, (b.map a.2).getD 0))).map (fun a => (a.1, some a.2)) := by
          rw [List.map_map]
          apply List.map_congr_left
          intro a ha
          show (a.1, b.map a.2) = (a.1, some _)
          rw [← hsome a.2 (reach_step h (l := a.1) (mem_iter.1 ha))]
        rw [h2, ← List.map_reverse] at h1
        have h3 := (List.map_injective_iff (f := fun a : Label × Nat => (a.1, some a.2))).2 (by
          rintro ⟨a1, a2⟩ ⟨b1, b2⟩ e
          simp only [Prod.mk.injEq, Option.some.injEq] at e
          rw [e.1, e.2]) h1
        dsimp only
        rw [h3]
        exact (List.reverse_perm _).trans ((iter_perm _).map _)
    · intro w
      rw [hB.takes w]
      constructor
      · exact Accepts.congr (fun _ _ _ h => mem_iter.1 h) (fun _ h => h)
      · exact Accepts.congr (fun _ _ _ h => mem_iter.2 h) (fun _ h => h)

/-! ## Marks -/

theorem Renumbered.step {g r : Graph} {φ : Nat → Nat} (h : Renumbered g r φ) {n : Nat} (hn : g.Reach 0 n) {l : Label} {j : Nat} :
    r.Step (φ n) l j ↔ ∃ m, g.Step n l m ∧ φ m = j := by
  unfold Graph.Step
  rw [(h.arcs n hn).mem_iff, List.mem_map]
  constructor
  · rintro ⟨a, ha, e⟩
    cases e
    exact ⟨a.2, ha, rfl⟩
  · rintro ⟨m, hm, rfl⟩
    exact ⟨(l, m), hm, rfl⟩

theorem Renumbered.takes {g r : Graph} {φ : Nat → Nat} (h : Renumbered g r φ) {n : Nat} (hn : g.Reach 0 n) (w : List Label) :
    r.Takes (φ n) w ↔ g.Takes n w := by
  constructor
  · intro ht
    unfold Graph.Takes at ht
    generalize hj : φ n = j at ht
    induction ht generalizing n with
    | stop hf => subst hj; exact .stop ((h.final n hn).symm.trans hf)
    | skip hs _ ih =>
      subst hj
      obtain ⟨m, hm, e⟩ := (h.step hn).1 hs
      exact .skip hm (ih (reach_step hn hm) e)
    | read hl hs _ ih =>
      subst hj
      obtain ⟨m, hm, e⟩ := (h.step hn).1 hs
      exact .read hl hm (ih (reach_step hn hm) e)
  · intro ht
    unfold Graph.Takes at ht
    induction ht with
    | stop hf => exact .stop ((h.final _ hn).trans hf)
    | skip hs _ ih => exact .skip ((h.step hn).2 ⟨_, hs, rfl⟩) (ih (reach_step hn hs))
    | read hl hs _ ih => exact .read hl ((h.step hn).2 ⟨_, hs, rfl⟩) (ih (reach_step hn hs))

theorem Renumbered.reach {g r : Graph} {φ : Nat → Nat} (h : Renumbered g r φ) {i j : Nat} (hr : r.Reach i j) :
    ∀ {n}, g.Reach 0 n → φ n = i → ∃ m, g.Reach 0 m ∧ φ m = j := by
  induction hr with
  | refl => exact fun hn e => ⟨_, hn, e⟩
  | step hs _ ih =>
    intro n hn e
    subst e
    obtain ⟨m, hm, e⟩ := (h.step hn).1 hs
    exact ih (reach_step hn hm) e

theorem Renumbered.closed {g r : Graph} {φ : Nat → Nat} (h : Renumbered g r φ) : r.Closed := by
  refine ⟨Nat.lt_of_le_of_lt (Nat.zero_le _) (h.low 0 .refl), fun j hj a ha => ?_⟩
  obtain ⟨n, hn, rfl⟩ := h.onto j hj
  obtain ⟨m, hm, e⟩ := (h.step (l := a.1) (j := a.2) hn).1 ha
  rw [← e]
  exact h.low m (reach_step hn hm)

theorem Renumbered.minimal {g r : Graph} {φ : Nat → Nat} (h : Renumbered g r φ) (hm : g.Minimal) : r.Minimal := by
  obtain ⟨h1, h2, h3⟩ := hm
  refine ⟨fun j hj => ?_, fun i j hi hj hw => ?_, fun i l j hi hs => ?_⟩
  · obtain ⟨n, hn, rfl⟩ := h.reach hj .refl h.root
    obtain ⟨d1, d2⟩ := h1 n hn
    have hp := h.arcs n hn
    constructor
    · intro a ha
      obtain ⟨m, hm, _⟩ := (h.step (l := a.1) (j := a.2) hn).1 ha
      exact d1 (a.1, m) hm
    · rw [(hp.map _).nodup_iff, List.map_map]
      exact d2
  · obtain ⟨n, hn, rfl⟩ := h.reach hi .refl h.root
    obtain ⟨m, hm, rfl⟩ := h.reach hj .refl h.root
    rw [h2 n m hn hm (fun w => by rw [← h.takes hn, ← h.takes hm]; exact hw w)]
  · obtain ⟨n, hn, rfl⟩ := h.reach hi .refl h.root
    obtain ⟨m, hm, rfl⟩ := (h.step hn).1 hs
    obtain ⟨w, hw⟩ := h3 n l m hn hm
    exact ⟨w, (h.takes (reach_step hn hm) w).2 hw⟩

/-- **C86, marks**: if the marks of the transducer that was stored were deserved, those of the transducer that is read are. -/
theorem C86_marks {t : Net} (hc : t.graph.Closed) (hf : t.Fits) (hs : t.symbols.Proper) (hn : t.Numbered)
    (hm : t.minimised = true → t.graph.Minimal) :
    ∃ bytes, t.store = .ok bytes ∧ ∀ rest r rest', readNet t.minimal (bytes ++ rest) = .ok (r, rest') →
      Fst.Honest ⟨r.graph, r.deterministic, r.minimised, r.symbols.pairs⟩ := by
  obtain ⟨bytes, h1, h2⟩ := C86_roundtrip hc hf hs hn
  refine ⟨bytes, h1, fun rest r rest' h => ?_⟩
  obtain ⟨r', h3, ⟨φ, hφ⟩, _, _, h4, h5⟩ := h2 rest
  rw [h3] at h
  cases h
  have key : (t.minimised && t.deterministic) = true → r.graph.Minimal := fun e =>
    hφ.minimal (hm ((Bool.and_eq_true _ _ ▸ e).1))
  exact ⟨hφ.closed, fun e => (key (h5 ▸ e)).1, fun e => key (h4 ▸ e)⟩

/-- A case: a:b b* with an unreached node, numbered before; symbols a and b. -/
def sampleNet : Net :=
  ⟨⟨3, fun n => if n = 0 then ⟨[(⟨1, 2⟩, 2)], false⟩ else if n = 2 then ⟨[(⟨0, 0⟩, 0), (⟨2, 2⟩, 2)], true⟩ else Node.init⟩,
    false, false, ⟨true, [(2, [98]), (0, [60, 62]), (1, [97])], [⟨1, 2⟩, ⟨2, 2⟩]⟩, some [0, 2]⟩

theorem sampleNet_reach {n m : Nat} (h : sampleNet.graph.Reach n m) : n = 0 ∨ n = 2 → m = 0 ∨ m = 2 := by
  induction h with
  | refl => exact id
  | step hs _ ih =>
    intro hn
    apply ih
    rcases hn with rfl | rfl <;> simp [Graph.Step, sampleNet] at hs <;> omega

example : sampleNet.graph.Closed ∧ sampleNet.Fits ∧ sampleNet.symbols.Proper ∧ sampleNet.Numbered := by
  refine ⟨⟨by decide, fun n hn a ha => ?_⟩, ⟨by decide, fun n hn => ?_, fun n hn a ha => ?_, by decide, fun c x h => ?_, by decide,
    by decide⟩, ⟨by decide, fun c x y h h' => ?_, fun c d x h h' => ?_, fun c x h => ?_, by decide⟩, fun ns h => ?_⟩
  · have : n = 0 ∨ n = 1 ∨ n = 2 := by have : sampleNet.graph.size = 3 := rfl; omega
    rcases this with rfl | rfl | rfl <;> simp [sampleNet, Node.init] at ha ⊢
    · subst ha; simp
    · rcases ha with rfl | rfl <;> simp
  · rcases sampleNet_reach hn (Or.inl rfl) with rfl | rfl <;> decide
  · rcases sampleNet_reach hn (Or.inl rfl) with rfl | rfl <;> simp [sampleNet] at ha
    · subst ha; simp
    · rcases ha with rfl | rfl <;> simp
  · simp [sampleNet] at h
    rcases h with ⟨rfl, rfl⟩ | ⟨rfl, rfl⟩ | ⟨rfl, rfl⟩ <;> simp
  · simp [sampleNet] at h h'
    rcases h with ⟨rfl, rfl⟩ | ⟨rfl, rfl⟩ | ⟨rfl, rfl⟩ <;> simp_all
  · simp [sampleNet] at h h'
    rcases h with ⟨rfl, rfl⟩ | ⟨rfl, rfl⟩ | ⟨rfl, rfl⟩ <;> simp_all
  · simp [sampleNet] at h
    rcases h with ⟨rfl, rfl⟩ | ⟨rfl, rfl⟩ | ⟨rfl, rfl⟩ <;> simp
  · cases h
    refine ⟨by decide, ⟨_, rfl⟩, by decide, fun n hn => ?_⟩
    rcases sampleNet_reach hn (Or.inl rfl) with rfl | rfl <;> decide

/-! ## What is refused -/

/-- What a walk of the writer adds: nodes with few arcs, whose arcs lead to visited nodes. -/
def StoreGrown (g : Graph) (L : List Nat) (seen seen' : List Nat) : Prop :=
  (∀ x ∈ seen, x ∈ seen') ∧ (∀ x ∈ L, x ∈ seen') ∧
  ∀ x ∈ seen', x ∈ seen ∨ ((g.node x).iter.length ≤ 65535 ∧ ∀ a ∈ (g.node x).iter, a.2 ∈ seen')

theorem steps_grown {g : Graph} {index : Nat → Option Nat} {rec : Nat → List Nat × Bytes → Outcome (List Nat × Bytes)}
    (ih : ∀ n s s', rec n s = .ok s' → StoreGrown g [n] s.1 s'.1) (L : List (Label × Nat)) :
    ∀ s s', steps (storeArc index rec) L s = .ok s' → StoreGrown g (L.map (fun a => a.2)) s.1 s'.1 := by
  induction L with
  | nil => intro s s' h; cases h; exact ⟨fun _ h => h, (fun _ h => by cases h), fun _ h => Or.inl h⟩
  | cons a L ihL =>
    intro s s' h
    rw [steps] at h
    cases h1 : storeArc index rec s a with
    | throws => rw [h1] at h; cases h
    | undefined => rw [h1] at h; cases h
    | ok s1 =>
      rw [h1, Outcome.bind] at h
      obtain ⟨b1, b2, b3⟩ := ihL _ _ h
      unfold storeArc at h1
      cases h2 : index a.2 with
      | none => rw [h2] at h1; cases h1
      | some t =>
        rw [h2] at h1
        obtain ⟨a1, a2, a3⟩ := ih _ _ _ h1
        refine ⟨fun x hx => b1 x (a1 x hx), fun x hx => ?_, fun x hx => ?_⟩
        · rw [List.map_cons, List.mem_cons] at hx
          rcases hx with rfl | hx
          · exact b1 _ (a2 _ (List.mem_singleton.2 rfl))
          · exact b2 x hx
        · rcases b3 x hx with h | h
          · rcases a3 x h with h | h
            · exact Or.inl h
            · exact Or.inr ⟨h.1, fun a ha => b1 _ (h.2 a ha)⟩
          · exact Or.inr h

theorem storeNode_grown {g : Graph} {index : Nat → Option Nat} (f : Nat) :
    ∀ n s s', storeNode g index f n s = .ok s' → StoreGrown g [n] s.1 s'.1 := by
  induction f with
  | zero => intro n s s' h; cases h
  | succ f ih =>
    intro n s s' h
    rw [storeNode] at h
    by_cases hn : n ∈ s.1
    · rw [if_pos hn] at h
      cases h
      exact ⟨fun _ h => h, fun x hx => by rw [List.mem_singleton.1 hx]; exact hn, fun _ h => Or.inl h⟩
    · rw [if_neg hn] at h
      by_cases hl : 65535 < (g.node n).iter.length
      · rw [if_pos hl] at h; cases h
      · rw [if_neg hl] at h
        obtain ⟨a1, a2, a3⟩ := steps_grown ih _ _ _ h
        have hin : n ∈ s'.1 := a1 n (List.mem_append.2 (Or.inr (List.mem_singleton.2 rfl)))
        refine ⟨fun x hx => a1 x (List.mem_append.2 (Or.inl hx)), fun x hx => by rw [List.mem_singleton.1 hx]; exact hin,
          fun x hx => ?_⟩
        rcases a3 x hx with h | h
        · rcases List.mem_append.1 h with h | h
          · exact Or.inl h
          · rw [List.mem_singleton] at h
            subst h
            exact Or.inr ⟨by omega, fun a ha => a2 _ (List.mem_map.2 ⟨a, ha, rfl⟩)⟩
        · exact Or.inr h

/-- **C86, what does not fit is refused**: no file is written for a transducer with more than 65535 arcs at a node in reach. -/
theorem C86_refused {t : Net} {n : Nat} (hn : t.graph.Reach 0 n) (h : 65535 < (t.graph.node n).arcs.length) (bytes : Bytes) :
    t.store ≠ .ok bytes := by
  intro hs
  unfold Net.store at hs
  cases hi : t.index with
  | throws => rw [hi] at hs; cases hs
  | undefined => rw [hi] at hs; cases hs
  | ok ns =>
    rw [hi, Outcome.bind] at hs
    cases hst : storeNode t.graph (indexOf ns) (t.graph.size + 2) 0 ([], [97] ++ leBytes 4 ns.length) with
    | throws => rw [hst] at hs; cases hs
    | undefined => rw [hst] at hs; cases hs
    | ok s =>
      obtain ⟨_, h2, h3⟩ := storeNode_grown _ _ _ _ hst
      have key : ∀ i j, t.graph.Reach i j → i ∈ s.1 → j ∈ s.1 := by
        intro i j hr
        induction hr with
        | refl => exact id
        | step hs' _ ih =>
          intro hi
          rcases h3 _ hi with h | h
          · cases h
          · exact ih (h.2 _ (mem_iter.2 hs'))
      rcases h3 n (key 0 n hn (h2 0 (List.mem_singleton.2 rfl))) with h' | h'
      · cases h'
      · rw [(iter_perm _).length_eq] at h'
        omega

example : ∃ g : Graph, g.Closed ∧ ∃ n, g.Reach 0 n ∧ 65535 < (g.node n).arcs.length := by
  obtain ⟨L, hL, hl⟩ : ∃ L : List (Label × Nat), (∀ a ∈ L, a.2 = 0) ∧ L.length = 65536 :=
    ⟨(List.range 65536).map (fun i => (⟨i, i⟩, 0)), fun a ha => by
      obtain ⟨i, _, e⟩ := List.mem_map.1 ha
      rw [← e], by rw [List.length_map, List.length_range]⟩
  exact ⟨⟨1, fun _ => ⟨L, true⟩⟩, ⟨Nat.zero_lt_one, fun n _ a ha => by rw [hL a ha]; exact Nat.zero_lt_one⟩, 0, .refl, by
    show 65535 < L.length; omega⟩

/-! ## Where it fails -/

/-- The transducer that accepts only the empty string. -/
def plainNet (symbols : Symbols) : Net := ⟨Graph.fresh.setFinal 0 true, true, true, symbols, none⟩

/-- The transducer after a path has been added to it in place (`SfstTransducer::disjunct` with a path). -/
def Net.afterPath (t : Net) (p : List Label) : Net :=
  { t with graph := (Fst.addPath ⟨t.graph, t.deterministic, t.minimised, t.symbols.pairs⟩ p).graph }

/-- **C86 fails for numbers that have become old**: a transducer whose states were counted and to which a path was added after that
cannot be stored: nodes without a number are written with whatever is in memory.  Without the counting it can. -/
theorem C86_stale_violated :
    ∃ (t t' : Net) (p : List Label), t.numberOfStates = .ok (1, t') ∧ (t'.afterPath p).store = .undefined ∧
      ∃ bytes, (t.afterPath p).store = .ok bytes :=
  ⟨plainNet Symbols.new, _, [⟨1, 1⟩], rfl, rfl, _, rfl⟩

theorem plainNet_store (a : Symbols) : (plainNet a).store = .ok ([97, 1, 0, 0, 0, 1, 0, 0] ++ a.store) := by
  have h1 : (plainNet a).index = .ok [0] := rfl
  have h2 : storeNode (Graph.fresh.setFinal 0 true) (indexOf [0]) 3 0 ([], [97] ++ leBytes 4 1) =
      .ok ([0], [97, 1, 0, 0, 0, 1, 0, 0]) := by decide +kernel
  unfold Net.store
  rw [h1, Outcome.bind]
  show (storeNode (Graph.fresh.setFinal 0 true) (indexOf [0]) 3 0 ([], [97] ++ leBytes 4 1)).bind _ = _
  rw [h2, Outcome.bind]
  rfl

theorem plainNet_read (m : Bool) (b : Bytes) :
    readNet m ([97, 1, 0, 0, 0, 1, 0, 0] ++ b) =
      (Symbols.new.read b).bind fun r => .ok (⟨Graph.fresh.setFinal 0 true, m, m, r.1, none⟩, r.2) := by
  have e : ([97, 1, 0, 0, 0, 1, 0, 0] : Bytes) ++ b = 97 :: (leBytes 4 1 ++ ([if true then 1 else 0] ++ (leBytes 2 0 ++ b))) := by
    have h1 : leBytes 4 1 = [1, 0, 0, 0] := by decide +kernel
    have h2 : leBytes 2 0 = [0, 0] := by decide +kernel
    rw [h1, h2]; rfl
  rw [e]
  unfold readNet
  dsimp only
  rw [if_neg (by simp), fread_leBytes (by decide), Outcome.bind]
  dsimp only
  rw [if_neg (by decide), readNode, fread_bool, Outcome.bind]
  dsimp only
  rw [fread_leBytes (by decide), Outcome.bind]
  rfl

theorem plainNet_numbered (a : Symbols) : (plainNet a).Numbered := by
  intro ns h
  cases h

/-- There are 65536 different label pairs with small codes. -/
theorem many_pairs : ∃ ps : List Label, ps.Nodup ∧ ps.length = 65536 ∧ (∀ l ∈ ps, l.lower ≤ 256 ∧ l.upper ≤ 256) ∧ ⟨0, 0⟩ ∉ ps ∧
    ⟨1, 1⟩ ∈ ps := by
  refine ⟨(List.range 65536).map (fun i => ⟨i / 256 + 1, i % 256 + 1⟩), ?_, ?_, fun l hl => ?_, fun h => ?_, ?_⟩
  · refine List.Nodup.map_on (fun i _ j _ e => ?_) List.nodup_range
    simp only [Label.mk.injEq] at e
    omega
  · rw [List.length_map, List.length_range]
  · obtain ⟨i, hi, e⟩ := List.mem_map.1 hl
    rw [List.mem_range] at hi
    rw [← e]
    dsimp only
    omega
  · obtain ⟨i, _, e⟩ := List.mem_map.1 h
    simp at e
  · exact List.mem_map.2 ⟨0, List.mem_range.2 (by decide), rfl⟩

theorem codes_plain (r : Bytes) (u : Bool) :
    readCodes 1 { Symbols.new with utf8 := u } (leBytes 2 0 ++ ([60, 62] ++ 0 :: r)) = .ok ({ Symbols.new with utf8 := u }, r) := by
  rw [readCodes, readUnchecked_leBytes (by decide), Outcome.bind]
  dsimp only
  rw [readString_ok (by decide) (by decide), Outcome.bind]
  rfl

/-- **C86 fails for many label pairs**: of 65536 label pairs, with codes of at most 256, none is read back: their number is written in 16
bits.  What is read next as a transducer begins with the pairs. -/
theorem C86_pairs_violated :
    ∃ t : Net, t.graph.Closed ∧ t.symbols.Proper ∧ t.Numbered ∧ t.symbols.pairs.Nodup ∧ t.symbols.pairs.length = 65536 ∧
      (∀ l ∈ t.symbols.pairs, l.lower ≤ 256 ∧ l.upper ≤ 256) ∧
      ∃ bytes junk, t.store = .ok bytes ∧ junk ≠ [] ∧ ∀ rest, ∃ r, readNet t.minimal (bytes ++ rest) = .ok (r, junk ++ rest) ∧
        r.symbols.pairs = [] := by
  obtain ⟨ps, hnd, hlen, hsmall, hz, hone⟩ := many_pairs
  refine ⟨plainNet ⟨false, [(0, [60, 62])], ps⟩, ⟨Nat.zero_lt_one, fun n _ a ha => ?_⟩, ⟨List.mem_singleton.2 rfl, ?_, ?_, ?_, ?_⟩,
    plainNet_numbered _, hnd, hlen, hsmall,
    [97, 1, 0, 0, 0, 1, 0, 0] ++ Symbols.store ⟨false, [(0, [60, 62])], ps⟩, ps.flatMap (fun l => leBytes 2 l.lower ++ leBytes 2 l.upper), plainNet_store _, ?_, fun rest => ?_⟩
  · exfalso
    have : ((plainNet ⟨false, [(0, [60, 62])], ps⟩).graph.node n).arcs = [] := by
      show ((Graph.fresh.setFinal 0 true).node n).arcs = []
      rw [node_setFinal]; split <;> rfl
    rw [this] at ha; cases ha
  · intro c x y h h'
    simp [plainNet] at h h'; rw [h.2, h'.2]
  · intro c d x h h'
    simp [plainNet] at h h'; rw [h.1, h'.1]
  · intro c x h
    simp [plainNet] at h; rw [h.2]; decide
  · exact hz
  · intro h
    have h2 := congrArg List.length (List.flatMap_eq_nil_iff.1 h _ hone)
    rw [List.length_append, length_leBytes] at h2
    simp at h2
  · rw [List.append_assoc, plainNet_read]
    unfold Symbols.store Symbols.read
    have hcut : leBytes 2 (65536 : Nat) = leBytes 2 0 := by decide +kernel
    simp only [hlen, hcut, List.append_assoc, List.cons_append, List.nil_append, Bool.false_eq_true, if_false]
    rw [show ([(0, [60, 62])] : List (Nat × Bytes)).length = 1 from rfl, readUnchecked_leBytes (by decide), Outcome.bind]
    dsimp only
    rw [List.flatMap_cons, List.flatMap_nil]
    simp only [List.append_assoc, List.cons_append, List.nil_append]
    have hc := codes_plain (leBytes 2 0 ++ (ps.flatMap (fun l => leBytes 2 l.lower ++ leBytes 2 l.upper) ++ rest)) false
    simp only [List.cons_append, List.nil_append] at hc
    rw [show decide ((0 : UInt8) ≠ 0) = false from rfl, hc, Outcome.bind]
    dsimp only
    rw [readUnchecked_leBytes (by decide), Outcome.bind]
    exact ⟨_, rfl, rfl⟩

theorem takeWhile_long (x : Bytes) (h : 0 ∉ x) (r : Bytes) : x.length ≤ ((x ++ r).takeWhile (fun c => c ≠ 0)).length := by
  induction x with
  | nil => simp
  | cons c x ih =>
    rw [List.cons_append, List.takeWhile_cons_of_pos, List.length_cons, List.length_cons]
    · have := ih (fun hc => h (List.mem_cons_of_mem _ hc)); omega
    · simpa using fun hc => h (by rw [hc]; exact List.mem_cons_self ..)

/-- **C86 fails for long symbols**: a transducer with a symbol of 100000 bytes or more is stored without an error and cannot be read. -/
theorem C86_long_violated (x : Bytes) (h0 : 0 ∉ x) (hl : 100000 ≤ x.length) :
    ∃ bytes, (plainNet ⟨false, [(0, [60, 62]), (1, x)], []⟩).store = .ok bytes ∧
      ∀ m rest, readNet m (bytes ++ rest) = .throws := by
  refine ⟨_, plainNet_store _, fun m rest => ?_⟩
  rw [List.append_assoc, plainNet_read]
  unfold Symbols.store Symbols.read
  simp only [List.append_assoc, List.cons_append, List.nil_append, Bool.false_eq_true, if_false]
  rw [show ([(0, [60, 62]), (1, x)] : List (Nat × Bytes)).length = 1 + 1 from rfl, readUnchecked_leBytes (by decide), Outcome.bind]
  dsimp only
  rw [List.flatMap_cons, List.flatMap_cons, readCodes]
  simp only [List.append_assoc]
  rw [readUnchecked_leBytes (by decide), Outcome.bind]
  dsimp only
  simp only [List.cons_append, List.nil_append]
  have hs := readString_ok (x := [60, 62]) (by decide) (by decide)
  simp only [List.cons_append, List.nil_append] at hs
  rw [hs, Outcome.bind]
  dsimp only
  rw [if_neg (by simp)]
  have ha : ({ Symbols.new with utf8 := decide ((0 : UInt8) ≠ 0) } : Symbols).add [60, 62] 0 =
    .ok { Symbols.new with utf8 := decide ((0 : UInt8) ≠ 0) } := rfl
  rw [ha, Outcome.bind]
  dsimp only
  rw [readCodes, readUnchecked_leBytes (by decide), Outcome.bind]
  dsimp only
  have : readString (x ++ ([0] ++ (List.flatMap (fun e : Nat × Bytes => leBytes 2 e.1 ++ (e.2 ++ [0])) [] ++
      (leBytes 2 0 ++ rest)))) = .throws := by
    unfold readString bufferLength
    dsimp only
    rw [if_pos (Nat.le_trans hl (takeWhile_long x h0 _))]
  simp only [List.cons_append, List.nil_append, List.flatMap_nil, List.length_nil] at this ⊢
  rw [this]
  rfl

example : (0 : UInt8) ∉ List.replicate 100000 (97 : UInt8) ∧ 100000 ≤ (List.replicate 100000 (97 : UInt8)).length :=
  ⟨fun h => by have := List.eq_of_mem_replicate h; revert this; decide, by rw [List.length_replicate]; exact Nat.le_refl _⟩

end Hfst.Sfst
