import Verif.Model.Compose
import Verif.Spec.Compose
import Verif.Lemmas.Graph
import Mathlib.Tactic.SplitIfs
import Mathlib.Tactic.ByContra
import Mathlib.Data.List.Pairwise

/-!
# C32: a rule pair acts as the intersection of its rules
-/
namespace Hfst.Compose
open Hfst.Basic Hfst.Basic.Graph

/-! ## Sorted sets -/

variable {num : Sym → Nat}

theorem arcLess_iff {a b : Arc} : arcLess num a b = true ↔
    num a.inp < num b.inp ∨ (num a.inp = num b.inp ∧ (num a.out < num b.out ∨ (num a.out = num b.out ∧
      (a.weight < b.weight ∨ (a.weight = b.weight ∧ a.target < b.target))))) := by
  unfold arcLess
  split_ifs with h1 h2 h3 <;> simp only [decide_eq_true_eq] <;> omega

theorem arcLess_trans {a b c : Arc} (h : arcLess num a b = true) (h' : arcLess num b c = true) : arcLess num a c = true := by
  rw [arcLess_iff] at *
  omega

theorem arcLess_total (hn : Function.Injective num) {a b : Arc} (h : ¬ arcLess num a b = true) (hne : b ≠ a) :
    arcLess num b a = true := by
  rw [arcLess_iff] at *
  by_contra h'
  apply hne
  obtain ⟨t, i, o, w⟩ := a
  obtain ⟨t', i', o', w'⟩ := b
  dsimp only at h h'
  have e1 : i' = i := hn (by omega)
  have e2 : o' = o := hn (by omega)
  have e3 : w' = w := by omega
  have e4 : t' = t := by omega
  rw [e1, e2, e3, e4]

def Sorted (num : Sym → Nat) (l : List Arc) : Prop := l.Pairwise fun a b => arcLess num a b = true

theorem Sorted.nodup {l : List Arc} (h : Sorted num l) : l.Nodup := by
  refine List.Pairwise.imp ?_ h
  intro a b hab e
  subst e
  rw [arcLess_iff] at hab
  omega

theorem mem_insertArc {x c : Arc} : ∀ {l : List Arc}, c ∈ insertArc num x l ↔ c = x ∨ c ∈ l
  | [] => by simp [insertArc]
  | y :: l => by
    rw [insertArc]
    split_ifs with h1 h2
    · rw [List.mem_cons, mem_insertArc, List.mem_cons]
      constructor <;> rintro (h | h | h) <;> simp [h]
    · subst h2; simp
    · simp

theorem sorted_insertArc (hn : Function.Injective num) {x : Arc} : ∀ {l : List Arc}, Sorted num l → Sorted num (insertArc num x l)
  | [], _ => by simp [insertArc, Sorted]
  | y :: l, h => by
    rw [insertArc]
    obtain ⟨h1, h2⟩ := List.pairwise_cons.mp h
    split_ifs with hyx hxy
    · refine List.pairwise_cons.mpr ⟨?_, sorted_insertArc hn h2⟩
      intro c hc
      rcases mem_insertArc.mp hc with rfl | hc
      · exact hyx
      · exact h1 c hc
    · exact h
    · have hlt := arcLess_total hn hyx hxy
      refine List.pairwise_cons.mpr ⟨?_, h⟩
      intro c hc
      rcases List.mem_cons.mp hc with rfl | hc
      · exact hlt
      · exact arcLess_trans hlt (h1 c hc)

/-! ## One rule -/

/-- Under which symbol a transition is entered. -/
def key (inputKeys : Bool) (a : Arc) : Sym := if inputKeys then a.inp else a.out

theorem addToMap_get (ik : Bool) : ∀ (l : List Arc) (m : List (Sym × List Arc)) (k : Sym) (c : Arc),
    c ∈ (mapGet (l.foldl (addToMap num ik) m) k).getD [] ↔
      c ∈ (mapGet m k).getD [] ∨ (c ∈ l ∧ c.inp ≠ identity ∧ key ik c = k)
  | [], m, k, c => by simp
  | a :: l, m, k, c => by
    rw [List.foldl_cons, addToMap_get ik l]
    unfold addToMap
    by_cases ha : a.inp = identity
    · rw [if_pos ha]
      constructor
      · rintro (h | ⟨h1, h2, h3⟩)
        · exact .inl h
        · exact .inr ⟨List.mem_cons_of_mem _ h1, h2, h3⟩
      · rintro (h | ⟨h1, h2, h3⟩)
        · exact .inl h
        · rcases List.mem_cons.mp h1 with rfl | h1
          · exact absurd ha h2
          · exact .inr ⟨h1, h2, h3⟩
    · rw [if_neg ha]
      dsimp only
      rw [mapGet_put]
      by_cases hk : k = (if ik = true then a.inp else a.out)
      · rw [if_pos hk, Option.getD_some, mem_insertArc, ← hk]
        constructor
        · rintro ((h | h) | ⟨h1, h2, h3⟩)
          · subst h; exact .inr ⟨List.mem_cons_self .., ha, hk.symm⟩
          · exact .inl h
          · exact .inr ⟨List.mem_cons_of_mem _ h1, h2, h3⟩
        · rintro (h | ⟨h1, h2, h3⟩)
          · exact .inl (.inr h)
          · rcases List.mem_cons.mp h1 with rfl | h1
            · exact .inl (.inl rfl)
            · exact .inr ⟨h1, h2, h3⟩
      · rw [if_neg hk]
        constructor
        · rintro (h | ⟨h1, h2, h3⟩)
          · exact .inl h
          · exact .inr ⟨List.mem_cons_of_mem _ h1, h2, h3⟩
        · rintro (h | ⟨h1, h2, h3⟩)
          · exact .inl h
          · rcases List.mem_cons.mp h1 with rfl | h1
            · exact absurd h3.symm hk
            · exact .inr ⟨h1, h2, h3⟩

theorem addToMap_sorted (hn : Function.Injective num) (ik : Bool) : ∀ (l : List Arc) (m : List (Sym × List Arc)),
    (∀ e ∈ m, Sorted num e.2) → ∀ e ∈ l.foldl (addToMap num ik) m, Sorted num e.2
  | [], _, h => h
  | a :: l, m, h => by
    rw [List.foldl_cons]
    refine addToMap_sorted hn ik l _ ?_
    unfold addToMap
    split_ifs
    · exact h
    all_goals
      intro e he
      rcases List.mem_cons.mp he with rfl | he
      · refine sorted_insertArc hn ?_
        cases hg : mapGet m _ with
        | none => exact List.Pairwise.nil
        | some set => exact h _ (mapGet_mem hg)
      · exact h e (List.mem_filter.mp he).1

theorem mem_sorted_arcs {g : Graph} {s : Nat} {a : Arc} : a ∈ (g.sortArcs num).arcs s ↔ a ∈ g.arcs s := by
  have e := arcs_map g (fun l => l.mergeSort (arcLe num)) (by simp) s g.alphabet
  unfold Graph.sortArcs
  rw [e]
  exact List.mem_mergeSort

theorem mem_getD_of_get {g : Graph} {s : Nat} {l : List Arc} (h : g.states[s]? = some l) : g.arcs s = l := by
  unfold Graph.arcs; rw [h]; rfl

/-- What the object for a rule holds, at all times. -/
structure LeafInv (num : Sym → Nat) (f : Fst) (g : Graph) : Prop where
  symbols : f.symbols = g.alphabet
  length : f.maps.length = g.states.length
  sets : ∀ (s : Nat) m x set, f.maps[s]? = some m → mapGet m x = some set →
    Sorted num set ∧ ∀ c, c ∈ set ↔ c.inp = x ∧ RuleStep g s x c.out c.weight c.target
  missing : ∀ (s : Nat) m x, f.maps[s]? = some m → mapGet m x = none → ∀ a ∈ g.arcs s, a.inp ≠ identity → a.inp ≠ x
  ids : ∀ s, s < g.states.length → ∃ a, f.identities[s]? = some a ∧ (a.inp = identity → a ∈ g.arcs s) ∧
    ∀ b ∈ g.arcs s, b.inp = identity → a = b
  finals : f.finals = (List.range g.states.length).map g.final

theorem flatMap_single {α β : Type} (f : α → List β) : ∀ (l : List α) (s : Nat) (x : α), (∀ y ∈ l, (f y).length = 1) →
    l[s]? = some x → (l.flatMap f)[s]? = (f x)[0]?
  | [], _, _, _, h => by simp at h
  | y :: l, s, x, hf, h => by
    have hy := hf y (List.mem_cons_self ..)
    rw [List.flatMap_cons]
    cases s with
    | zero =>
      simp only [List.getElem?_cons_zero, Option.some.injEq] at h
      subst h
      rw [List.getElem?_append_left (by omega)]
    | succ s =>
      rw [List.getElem?_append_right (by omega), hy]
      exact flatMap_single f l s x (fun z hz => hf z (List.mem_cons_of_mem _ hz)) (by simpa using h)

theorem length_filter_sorted (g : Graph) (s : Nat) (p : Arc → Bool) :
    (((g.sortArcs num).arcs s).filter p).length = ((g.arcs s).filter p).length := by
  have e := arcs_map g (fun l => l.mergeSort (arcLe num)) (by simp) s g.alphabet
  unfold Graph.sortArcs
  rw [e]
  exact ((List.mergeSort_perm _ _).filter p).length_eq

theorem build_inv (hn : Function.Injective num) {g : Graph} (hg : RuleOK g) : LeafInv num (Fst.build num true g) g := by
  have hlen : (g.sortArcs num).states.length = g.states.length := by simp [Graph.sortArcs]
  refine ⟨rfl, ?_, ?_, ?_, ?_, ?_⟩
  · simp [Fst.build, hlen]
  · intro s m x set hm hx
    unfold Fst.build at hm
    rw [List.getElem?_map] at hm
    obtain ⟨l, hl, rfl⟩ := Option.map_eq_some_iff.mp hm
    refine ⟨addToMap_sorted hn true l [] (by simp) _ (mapGet_mem hx), ?_⟩
    have harcs := mem_getD_of_get hl
    intro c
    have := addToMap_get (num := num) true l [] x c
    rw [hx] at this
    simp only [Option.getD_some] at this
    rw [this]
    have hnil : (mapGet ([] : List (Sym × List Arc)) x).getD [] = [] := rfl
    rw [hnil, ← harcs, mem_sorted_arcs]
    have hne : set ≠ [] → x ∈ g.alphabet := by
      intro hs
      obtain ⟨d, hd⟩ := List.exists_mem_of_ne_nil _ hs
      have hd' := addToMap_get (num := num) true l [] x d
      rw [hx] at hd'
      simp only [Option.getD_some] at hd'
      rcases hd'.mp hd with h | ⟨h1, _, h3⟩
      · simp [hnil] at h
      · rw [← harcs, mem_sorted_arcs] at h1
        have : d.inp = x := h3
        rw [← this]; exact (hg.alphabet.arcs s d h1).1
    constructor
    · rintro (h | ⟨h1, h2, h3⟩)
      · cases h
      · have h3 : c.inp = x := h3
        refine ⟨h3, .inl ⟨h3 ▸ h2, ?_⟩⟩
        rw [← h3]; exact h1
    · rintro ⟨h1, ⟨h2, h3⟩ | ⟨h2, _⟩⟩
      · right
        rw [← h1] at h3 h2
        exact ⟨h3, h2, h1⟩
      · exfalso
        -- an entry is only made for a symbol of the alphabet
        apply h2
        apply hne
        rintro rfl
        have hkeys : ∀ (l : List Arc) (m : List (Sym × List Arc)), (∀ e ∈ m, e.2 ≠ []) →
            ∀ e ∈ l.foldl (addToMap num true) m, e.2 ≠ [] := by
          intro l
          induction l with
          | nil => intro m h; exact h
          | cons a l ih =>
            intro m h
            rw [List.foldl_cons]
            apply ih
            unfold addToMap
            split_ifs
            · exact h
            · intro e he
              rcases List.mem_cons.mp he with rfl | he
              · intro h0
                have := (mem_insertArc (num := num) (x := a) (c := a) (l := (mapGet m a.inp).getD [])).mpr (.inl rfl)
                dsimp only at h0
                rw [h0] at this
                cases this
              · exact h e (List.mem_filter.mp he).1
            · exact absurd rfl ‹¬ true = true›
        exact hkeys l [] (by simp) _ (mapGet_mem hx) rfl
  · intro s m x hm hx a ha hai hax
    unfold Fst.build at hm
    rw [List.getElem?_map] at hm
    obtain ⟨l, hl, rfl⟩ := Option.map_eq_some_iff.mp hm
    have harcs := mem_getD_of_get hl
    have := (addToMap_get (num := num) true l [] x a).mpr
      (.inr ⟨by rw [← harcs, mem_sorted_arcs]; exact ha, hai, hax⟩)
    rw [hx] at this
    cases this
  · intro s hs
    have hs' : s < (g.sortArcs num).states.length := by omega
    have hl : (g.sortArcs num).states[s]? = some (g.sortArcs num).states[s] := List.getElem?_eq_getElem hs'
    have harcs := mem_getD_of_get hl
    have hone : ∀ l ∈ (g.sortArcs num).states, (identitiesOf l).length = 1 := by
      intro l hlm
      obtain ⟨t, ht⟩ := List.getElem?_of_mem hlm
      have h1 := hg.single t
      rw [← length_filter_sorted (num := num), mem_getD_of_get ht] at h1
      unfold identitiesOf
      dsimp only
      split_ifs with h0
      · rfl
      · have := List.length_pos_iff.mpr h0
        omega
    have hget := flatMap_single identitiesOf _ s _ hone hl
    have h1 := hone _ (List.mem_of_getElem? hl)
    obtain ⟨a, ha⟩ := List.length_eq_one_iff.mp h1
    rw [ha] at hget
    refine ⟨a, by unfold Fst.build; rw [hget]; rfl, ?_, ?_⟩
    · intro hai
      unfold identitiesOf at ha
      dsimp only at ha
      split_ifs at ha with h0
      · have ha' : (⟨0, epsilon, epsilon, 0⟩ : Arc) = a := (List.cons.inj ha).1
        rw [← ha'] at hai
        exact absurd hai (by decide)
      · have : a ∈ [a] := List.mem_cons_self ..
        rw [← ha] at this
        have := (List.mem_filter.mp this).1
        rw [← harcs, mem_sorted_arcs] at this
        exact this
    · intro b hb hbi
      rw [← mem_sorted_arcs (num := num), harcs] at hb
      have hbf : b ∈ List.filter (fun a => decide (a.inp = identity)) (g.sortArcs num).states[s] :=
        List.mem_filter.mpr ⟨hb, by simpa using hbi⟩
      unfold identitiesOf at ha
      dsimp only at ha
      split_ifs at ha with h0
      · rw [h0] at hbf; cases hbf
      · rw [ha] at hbf
        exact (List.mem_singleton.mp hbf).symm
  · unfold Fst.build
    dsimp only
    rw [hlen]
    rfl

theorem put_inv {f : Fst} {g : Graph} (h : LeafInv num f g) {s : Nat} {x : Sym} {set : List Arc} (hs : Sorted num set)
    (hset : ∀ c, c ∈ set ↔ c.inp = x ∧ RuleStep g s x c.out c.weight c.target) : LeafInv num (f.put s x set) g := by
  have hget : ∀ (t : Nat) m, (f.put s x set).maps[t]? = some m →
      ∃ m0, f.maps[t]? = some m0 ∧ m = if t = s then mapPut m0 x set else m0 := by
    intro t m hm
    unfold Fst.put at hm
    dsimp only at hm
    rw [List.getElem?_modify] at hm
    obtain ⟨m0, h0, h1⟩ := Option.map_eq_some_iff.mp hm
    refine ⟨m0, h0, ?_⟩
    rw [← h1]
    by_cases hst : s = t
    · rw [if_pos hst, if_pos hst.symm]
    · rw [if_neg hst, if_neg fun e => hst e.symm]
  refine ⟨h.symbols, by simp [Fst.put, h.length], ?_, ?_, h.ids, h.finals⟩
  · intro t m y set' hm hy
    obtain ⟨m0, h0, rfl⟩ := hget t m hm
    by_cases hst : t = s
    · rw [if_pos hst, mapGet_put] at hy
      subst hst
      split_ifs at hy with hyx
      · injection hy with hy
        subst hyx hy
        exact ⟨hs, hset⟩
      · exact h.sets t m0 y set' h0 hy
    · rw [if_neg hst] at hy
      exact h.sets t m0 y set' h0 hy
  · intro t m y hm hy
    obtain ⟨m0, h0, rfl⟩ := hget t m hm
    by_cases hst : t = s
    · rw [if_pos hst, mapGet_put] at hy
      split_ifs at hy with hyx
      exact h.missing t m0 y h0 hy
    · rw [if_neg hst] at hy
      exact h.missing t m0 y h0 hy

theorem leaf_get {f : Fst} {g : Graph} (h : LeafInv num f g) {s : Nat} (hs : s < g.states.length) (x : Sym) :
    ∃ set f', f.get s x = .ok (set, f') ∧ LeafInv num f' g ∧ Sorted num set ∧
      ∀ c, c ∈ set ↔ c.inp = x ∧ RuleStep g s x c.out c.weight c.target := by
  have hlt : s < f.maps.length := by rw [h.length]; exact hs
  have hm : f.maps[s]? = some f.maps[s] := List.getElem?_eq_getElem hlt
  unfold Fst.get
  rw [hm]
  dsimp only
  cases hx : mapGet f.maps[s] x with
  | some set =>
    obtain ⟨h1, h2⟩ := h.sets s _ x set hm hx
    exact ⟨set, f, rfl, h, h1, h2⟩
  | none =>
    dsimp only
    have hmiss := h.missing s _ x hm hx
    have hexp : ∀ o w t, ¬ (x ≠ identity ∧ (⟨t, x, o, w⟩ : Arc) ∈ g.arcs s) := by
      rintro o w t ⟨h1, h2⟩
      exact hmiss _ h2 h1 rfl
    have hempty : (x ∈ g.alphabet ∨ ∀ b ∈ g.arcs s, b.inp ≠ identity) →
        ∀ c : Arc, c ∈ ([] : List Arc) ↔ c.inp = x ∧ RuleStep g s x c.out c.weight c.target := by
      intro h0 c
      constructor
      · intro h; cases h
      · rintro ⟨h1, h2 | ⟨h2, _, b, h3, h4, _⟩⟩
        · exact absurd h2 (hexp _ _ _)
        · rcases h0 with h0 | h0
          · exact absurd h0 h2
          · exact absurd h4 (h0 b h3)
    by_cases hxs : x ∈ f.symbols
    · rw [if_pos hxs]
      have := hempty (.inl (h.symbols ▸ hxs))
      exact ⟨[], _, rfl, put_inv h List.Pairwise.nil this, List.Pairwise.nil, this⟩
    · rw [if_neg hxs]
      obtain ⟨a, ha, ha1, ha2⟩ := h.ids s hs
      rw [ha]
      dsimp only
      by_cases hai : a.inp ≠ identity
      · rw [if_pos hai]
        have := hempty (.inr fun b hb hbi => hai (ha2 b hb hbi ▸ hbi))
        exact ⟨[], _, rfl, put_inv h List.Pairwise.nil this, List.Pairwise.nil, this⟩
      · rw [if_neg hai]
        have hai : a.inp = identity := by simpa using hai
        have hset : ∀ c : Arc, c ∈ [(⟨a.target, x, x, a.weight⟩ : Arc)] ↔
            c.inp = x ∧ RuleStep g s x c.out c.weight c.target := by
          intro c
          rw [List.mem_singleton]
          constructor
          · rintro rfl
            exact ⟨rfl, .inr ⟨h.symbols ▸ hxs, rfl, a, ha1 hai, hai, rfl, rfl⟩⟩
          · rintro ⟨h1, h2 | ⟨h2, h3, b, h4, h5, h6, h7⟩⟩
            · exact absurd h2 (hexp _ _ _)
            · have := ha2 b h4 h5
              subst this
              obtain ⟨t, i, o, w⟩ := c
              dsimp only at h1 h3 h6 h7
              rw [h1, h3, h6, h7]
        exact ⟨_, _, rfl, put_inv h (List.pairwise_singleton ..) hset, List.pairwise_singleton .., hset⟩

/-! ## Rules together -/

/-- The state that a state number stands for. -/
def Rules.decode : Rules → Nat → Option RState
  | .rule f _, n => if n < f.maps.length then some (.one n) else none
  | .pair a b t, n =>
    match t.pairs[n]? with
    | none => none
    | some p => match a.decode p.1, b.decode p.2 with
      | some s, some s' => some (.both s s')
      | _, _ => none

/-- Every state number keeps its meaning. -/
def Grows (d d' : Nat → Option RState) : Prop := ∀ n s, d n = some s → d' n = some s

theorem Grows.refl (d : Nat → Option RState) : Grows d d := fun _ _ h => h

theorem Grows.trans {d d' d'' : Nat → Option RState} (h : Grows d d') (h' : Grows d' d'') : Grows d d'' :=
  fun n s hn => h' n s (h n s hn)

/-- The set of transitions is what the rules together allow. -/
structure Right (num : Sym → Nat) (dec : Nat → Option RState) (spec : RuleSpec) (s : RState) (x : Sym) (set : List Arc) :
    Prop where
  sorted : Sorted num set
  sound : ∀ c ∈ set, c.inp = x ∧ ∃ q, dec c.target = some q ∧ spec.Step s x c.out c.weight q
  complete : ∀ o w q, spec.Step s x o w q → ∃ c ∈ set, c.inp = x ∧ c.out = o ∧ c.weight = w ∧ dec c.target = some q

theorem Right.mono {d d' : Nat → Option RState} {spec : RuleSpec} {s : RState} {x : Sym} {set : List Arc}
    (h : Right num d spec s x set) (hg : Grows d d') : Right num d' spec s x set := by
  refine ⟨h.sorted, ?_, ?_⟩
  · intro c hc
    obtain ⟨h1, q, h2, h3⟩ := h.sound c hc
    exact ⟨h1, q, hg _ _ h2, h3⟩
  · intro o w q hs
    obtain ⟨c, h1, h2, h3, h4, h5⟩ := h.complete o w q hs
    exact ⟨c, h1, h2, h3, h4, hg _ _ h5⟩

/-- What a pair of states stands for. -/
def pairDecode (da db : Nat → Option RState) (p : Nat × Nat) : Option RState :=
  match da p.1, db p.2 with
  | some s, some s' => some (.both s s')
  | _, _ => none

/-- What a state number of a pair of rules stands for. -/
def tableDecode (da db : Nat → Option RState) (t : PairTable) (n : Nat) : Option RState :=
  (t.pairs[n]?).bind (pairDecode da db)

theorem decode_pair (a b : Rules) (t : PairTable) : (Rules.pair a b t).decode = tableDecode a.decode b.decode t := by
  funext n
  rw [Rules.decode, tableDecode]
  cases t.pairs[n]? with
  | none => rfl
  | some p => rfl

/-- What a pair of rules keeps, at all times. -/
structure TableInv (num : Sym → Nat) (da db : Nat → Option RState) (spec : RuleSpec) (t : PairTable) : Prop where
  numbers : ∀ p n, mapGet t.numbers p = some n ↔ t.pairs[n]? = some p
  valid : ∀ p ∈ t.pairs, ∃ s s', da p.1 = some s ∧ db p.2 = some s'
  length : t.sets.length = t.pairs.length
  first : t.pairs[0]? = some (0, 0)
  sets : ∀ (n : Nat) m x set, t.sets[n]? = some m → mapGet m x = some set → ∀ s, tableDecode da db t n = some s →
    Right num (tableDecode da db t) spec s x set

/-- What rules keep, at all times. -/
def RInv (num : Sym → Nat) : Rules → RuleSpec → Prop
  | .rule f sy, .one g => LeafInv num f g ∧ sy = g.alphabet
  | .pair a b t, .both x y => RInv num a x ∧ RInv num b y ∧ TableInv num a.decode b.decode (.both x y) t
  | _, _ => False

theorem pairDecode_eq {da db : Nat → Option RState} {p : Nat × Nat} {q : RState} :
    pairDecode da db p = some q ↔ ∃ s s', da p.1 = some s ∧ db p.2 = some s' ∧ q = .both s s' := by
  unfold pairDecode
  cases h1 : da p.1 with
  | none => simp
  | some s =>
    cases h2 : db p.2 with
    | none => simp
    | some s' =>
      simp only [Option.some.injEq]
      constructor
      · rintro rfl; exact ⟨s, s', rfl, rfl, rfl⟩
      · rintro ⟨_, _, rfl, rfl, rfl⟩; rfl

theorem tableDecode_eq {da db : Nat → Option RState} {t : PairTable} {n : Nat} {q : RState} :
    tableDecode da db t n = some q ↔ ∃ p s s', t.pairs[n]? = some p ∧ da p.1 = some s ∧ db p.2 = some s' ∧ q = .both s s' := by
  unfold tableDecode
  rw [Option.bind_eq_some_iff]
  constructor
  · rintro ⟨p, h1, h2⟩
    obtain ⟨s, s', h⟩ := pairDecode_eq.mp h2
    exact ⟨p, s, s', h1, h⟩
  · rintro ⟨p, s, s', h1, h⟩
    exact ⟨p, h1, pairDecode_eq.mpr ⟨s, s', h⟩⟩

/-- Different state numbers stand for different states. -/
theorem decode_inj : ∀ (r : Rules) (spec : RuleSpec), RInv num r spec → ∀ n n' s, r.decode n = some s → r.decode n' = some s →
    n = n'
  | .rule f sy, spec, _, n, n', s, h, h' => by
    rw [Rules.decode] at h h'
    split_ifs at h
    split_ifs at h'
    rw [← h'] at h
    simpa using h
  | .pair a b t, .one g, hr, _, _, _, _, _ => hr.elim
  | .pair a b t, .both x y, hr, n, n', s, h, h' => by
    obtain ⟨ha, hb, ht⟩ := hr
    rw [decode_pair, tableDecode_eq] at h h'
    obtain ⟨p, s1, s2, h1, h2, h3, h4⟩ := h
    obtain ⟨p', s1', s2', h1', h2', h3', h4'⟩ := h'
    rw [h4] at h4'
    injection h4' with e1 e2
    subst e1 e2
    have e1 := decode_inj a x ha _ _ _ h2 h2'
    have e2 := decode_inj b y hb _ _ _ h3 h3'
    have e : p = p' := Prod.ext e1 e2
    subst e
    have := (ht.numbers p n).mpr h1
    rw [(ht.numbers p n').mpr h1'] at this
    injection this with this
    exact this.symm

theorem pairwise_eq {α : Type} {R : α → α → Prop} (hsymm : ∀ a b, R a b → R b a) {l : List α} (h : l.Pairwise R) {a b : α}
    (ha : a ∈ l) (hb : b ∈ l) (hR : ¬ R a b) : a = b := by
  induction l with
  | nil => cases ha
  | cons c l ih =>
    obtain ⟨h1, h2⟩ := List.pairwise_cons.mp h
    rcases List.mem_cons.mp ha with rfl | ha <;> rcases List.mem_cons.mp hb with rfl | hb
    · rfl
    · exact absurd (h1 _ ‹_›) hR
    · exact absurd (hsymm _ _ (h1 _ ‹_›)) hR
    · exact ih h2 ‹_› ‹_›

theorem step_det : ∀ (spec : RuleSpec), spec.Fine → spec.Deterministic → ∀ {s x o w w' q q'}, spec.Step s x o w q →
    spec.Step s x o w' q' → w = w' ∧ q = q'
  | .one g, hf, hd, s, x, o, w, w', q, q', h, h' => by
    match s, q, q' with
    | .both _ _, _, _ => exact h.elim
    | .one _, .both _ _, _ => exact h.elim
    | .one _, .one _, .both _ _ => exact h'.elim
    | .one s, .one t, .one t' =>
      have h : RuleStep g s x o w t := h
      have h' : RuleStep g s x o w' t' := h'
      have hsym : ∀ a b : Arc, ¬ (a.inp = b.inp ∧ a.out = b.out) → ¬ (b.inp = a.inp ∧ b.out = a.out) :=
        fun a b h h' => h ⟨h'.1.symm, h'.2.symm⟩
      rcases h with ⟨h1, h2⟩ | ⟨h1, h2, a, h3, h4, h5, h6⟩ <;> rcases h' with ⟨h1', h2'⟩ | ⟨h1', h2', b, h3', h4', h5', h6'⟩
      · have := pairwise_eq hsym (hd s) h2 h2' (by simp)
        injection this with e1 _ _ e2
        exact ⟨e2, by rw [e1]⟩
      · exact absurd (hf.alphabet.arcs _ _ h2).1 h1'
      · exact absurd (hf.alphabet.arcs _ _ h2').1 h1
      · have ho := (hf.paired s a h3).mp h4
        have ho' := (hf.paired s b h3').mp h4'
        have := pairwise_eq hsym (hd s) h3 h3' (by simp [h4, h4', ho, ho'])
        subst this
        rw [← h5, ← h5', ← h6, ← h6']
        exact ⟨rfl, rfl⟩
  | .both a b, hf, hd, s, x, o, w, w', q, q', h, h' => by
    match s, q, q' with
    | .one _, _, _ => exact h.elim
    | .both _ _, .one _, _ => exact h.elim
    | .both _ _, .both _ _, .one _ => exact h'.elim
    | .both s t, .both s1 t1, .both s2 t2 =>
      obtain ⟨w1, w2, h1, h2, rfl⟩ := h
      obtain ⟨v1, v2, h1', h2', rfl⟩ := h'
      obtain ⟨e1, e2⟩ := step_det a hf.1 hd.1 h1 h1'
      obtain ⟨e3, e4⟩ := step_det b hf.2.1 hd.2 h2 h2'
      rw [e1, e2, e3, e4]
      exact ⟨rfl, rfl⟩

/-! ### The merge -/

/-- The outputs increase. -/
def Increasing (num : Sym → Nat) (l : List Arc) : Prop := l.Pairwise fun a b => num a.out < num b.out

theorem mergeInner_eq (hn : Function.Injective num) (x : Sym) (a : Arc) (as : List Arc) (ha : ∀ a' ∈ as, num a.out < num a'.out)
    (next : List Arc → List Arc × PairTable → List Arc × PairTable)
    (hnext : ∀ bs, Increasing num bs → ∃ M : List (Arc × Arc), (∀ acc, next bs acc = M.foldl (addMatch num x) acc) ∧
      ∀ a b, (a, b) ∈ M ↔ a ∈ as ∧ b ∈ bs ∧ a.out = b.out) : ∀ bs, Increasing num bs → ∃ M : List (Arc × Arc),
      (∀ acc, mergeInner num x a next bs acc = M.foldl (addMatch num x) acc) ∧
      ∀ a' b, (a', b) ∈ M ↔ a' ∈ a :: as ∧ b ∈ bs ∧ a'.out = b.out
  | [], _ => ⟨[], fun _ => rfl, by simp⟩
  | b :: bs, hb => by
    obtain ⟨hb1, hb2⟩ := List.pairwise_cons.mp hb
    have ha0 : ∀ a' ∈ a :: as, num a.out ≤ num a'.out := by
      intro a' h
      rcases List.mem_cons.mp h with rfl | h
      · exact Nat.le_refl _
      · exact Nat.le_of_lt (ha a' h)
    have hb0 : ∀ b' ∈ b :: bs, num b.out ≤ num b'.out := by
      intro b' h
      rcases List.mem_cons.mp h with rfl | h
      · exact Nat.le_refl _
      · exact Nat.le_of_lt (hb1 b' h)
    by_cases h1 : num a.out = num b.out
    · obtain ⟨M, hM, hm⟩ := hnext bs hb2
      refine ⟨(a, b) :: M, ?_, ?_⟩
      · intro acc
        rw [mergeInner, if_pos h1, hM, List.foldl_cons]
      · intro a' b'
        rw [List.mem_cons, hm, Prod.mk.injEq]
        constructor
        · rintro (⟨rfl, rfl⟩ | ⟨h2, h3, h4⟩)
          · exact ⟨List.mem_cons_self .., List.mem_cons_self .., hn h1⟩
          · exact ⟨List.mem_cons_of_mem _ h2, List.mem_cons_of_mem _ h3, h4⟩
        · rintro ⟨h2, h3, h4⟩
          have h4' := congrArg num h4
          rcases List.mem_cons.mp h2 with rfl | h2 <;> rcases List.mem_cons.mp h3 with rfl | h3
          · exact .inl ⟨rfl, rfl⟩
          · have := hb1 b' h3; omega
          · have := ha a' h2; omega
          · exact .inr ⟨h2, h3, h4⟩
    · by_cases h2 : num a.out < num b.out
      · obtain ⟨M, hM, hm⟩ := hnext (b :: bs) hb
        refine ⟨M, ?_, ?_⟩
        · intro acc
          rw [mergeInner, if_neg h1, if_pos h2, hM]
        · intro a' b'
          rw [hm]
          constructor
          · rintro ⟨h3, h4, h5⟩
            exact ⟨List.mem_cons_of_mem _ h3, h4, h5⟩
          · rintro ⟨h3, h4, h5⟩
            rcases List.mem_cons.mp h3 with rfl | h3
            · have := hb0 b' h4
              rw [h5] at h2
              omega
            · exact ⟨h3, h4, h5⟩
      · obtain ⟨M, hM, hm⟩ := mergeInner_eq hn x a as ha next hnext bs hb2
        refine ⟨M, ?_, ?_⟩
        · intro acc
          rw [mergeInner, if_neg h1, if_neg h2, hM]
        · intro a' b'
          rw [hm]
          constructor
          · rintro ⟨h3, h4, h5⟩
            exact ⟨h3, List.mem_cons_of_mem _ h4, h5⟩
          · rintro ⟨h3, h4, h5⟩
            rcases List.mem_cons.mp h4 with rfl | h4
            · have := ha0 a' h3
              rw [h5] at this
              omega
            · exact ⟨h3, h4, h5⟩

theorem mergeLoop_eq (hn : Function.Injective num) (x : Sym) : ∀ as, Increasing num as → ∀ bs, Increasing num bs →
    ∃ M : List (Arc × Arc), (∀ acc, mergeLoop num x as bs acc = M.foldl (addMatch num x) acc) ∧
      ∀ a b, (a, b) ∈ M ↔ a ∈ as ∧ b ∈ bs ∧ a.out = b.out
  | [], _, bs, _ => ⟨[], fun _ => rfl, by simp⟩
  | a :: as, ha, bs, hb => by
    obtain ⟨h1, h2⟩ := List.pairwise_cons.mp ha
    obtain ⟨M, hM, hm⟩ := mergeInner_eq hn x a as h1 (mergeLoop num x as) (mergeLoop_eq hn x as h2) bs hb
    exact ⟨M, fun acc => by rw [mergeLoop, hM], hm⟩

/-- No state pair is lost or renumbered. -/
def Extends (t t' : PairTable) : Prop := ∀ (n : Nat) p, t.pairs[n]? = some p → t'.pairs[n]? = some p

theorem tableDecode_grows {da db : Nat → Option RState} {t t' : PairTable} (h : Extends t t') :
    Grows (tableDecode da db t) (tableDecode da db t') := by
  intro n s hs
  rw [tableDecode_eq] at *
  obtain ⟨p, s1, s2, h1, h2⟩ := hs
  exact ⟨p, s1, s2, h _ _ h1, h2⟩

theorem state_inv {da db : Nat → Option RState} {spec : RuleSpec} {t : PairTable} (ht : TableInv num da db spec t) {p : Nat × Nat}
    (hp : ∃ s s', da p.1 = some s ∧ db p.2 = some s') : TableInv num da db spec (t.state p).1 ∧ Extends t (t.state p).1 ∧
      (t.state p).1.pairs[(t.state p).2]? = some p := by
  unfold PairTable.state
  cases hg : mapGet t.numbers p with
  | some n => exact ⟨ht, fun _ _ h => h, (ht.numbers p n).mp hg⟩
  | none =>
    dsimp only
    have hext : Extends t ⟨t.pairs ++ [p], mapPut t.numbers p t.pairs.length, t.sets ++ [[]]⟩ := by
      intro n p' h
      rw [List.getElem?_append_left (List.getElem?_eq_some_iff.mp h).1]
      exact h
    refine ⟨⟨?_, ?_, ?_, ?_, ?_⟩, hext, ?_⟩
    · intro p' n
      rw [mapGet_put]
      by_cases hpp : p' = p
      · rw [if_pos hpp, hpp]
        constructor
        · intro h
          injection h with h
          rw [← h]
          simp
        · intro h
          by_cases hn : n < t.pairs.length
          · rw [List.getElem?_append_left hn] at h
            rw [(ht.numbers p n).mpr h] at hg
            cases hg
          · have := (List.getElem?_eq_some_iff.mp h).1
            simp only [List.length_append, List.length_singleton] at this
            congr 1
            omega
      · rw [if_neg hpp, ht.numbers]
        constructor
        · intro h; exact hext _ _ h
        · intro h
          by_cases hn : n < t.pairs.length
          · rw [List.getElem?_append_left hn] at h; exact h
          · exfalso
            have h' := (List.getElem?_eq_some_iff.mp h).1
            simp only [List.length_append, List.length_singleton] at h'
            have : n = t.pairs.length := by omega
            subst this
            simp at h
            exact hpp h.symm
    · intro p' h
      rcases List.mem_append.mp h with h | h
      · exact ht.valid p' h
      · rw [List.mem_singleton.mp h]; exact hp
    · simp [ht.length]
    · exact hext _ _ ht.first
    · intro n m x set hm hx s hs
      by_cases hn : n < t.sets.length
      · rw [List.getElem?_append_left hn] at hm
        rw [tableDecode_eq] at hs
        obtain ⟨p', s1, s2, h1, h2⟩ := hs
        rw [ht.length] at hn
        dsimp only at h1
        rw [List.getElem?_append_left hn] at h1
        exact (ht.sets n m x set hm hx s (tableDecode_eq.mpr ⟨p', s1, s2, h1, h2⟩)).mono (tableDecode_grows hext)
      · have h' := (List.getElem?_eq_some_iff.mp hm).1
        simp only [List.length_append, List.length_singleton] at h'
        have : n = t.sets.length := by omega
        subst this
        simp at hm
        subst hm
        cases hx
    · simp

theorem foldl_addMatch (hn : Function.Injective num) {da db : Nat → Option RState} {spec : RuleSpec} (x : Sym) :
    ∀ (M : List (Arc × Arc)) (set : List Arc) (t : PairTable), TableInv num da db spec t → Sorted num set →
    (∀ p ∈ M, ∃ s s', da p.1.target = some s ∧ db p.2.target = some s') →
    ∃ set' t', M.foldl (addMatch num x) (set, t) = (set', t') ∧ TableInv num da db spec t' ∧ Extends t t' ∧ Sorted num set' ∧
      (∀ c ∈ set', c ∈ set ∨ ∃ p ∈ M, c.inp = x ∧ c.out = p.1.out ∧ c.weight = p.1.weight + p.2.weight ∧
        t'.pairs[c.target]? = some (p.1.target, p.2.target)) ∧
      (∀ c ∈ set, c ∈ set') ∧
      ∀ p ∈ M, ∃ c ∈ set', c.inp = x ∧ c.out = p.1.out ∧ c.weight = p.1.weight + p.2.weight ∧
        t'.pairs[c.target]? = some (p.1.target, p.2.target)
  | [], set, t, ht, hs, _ => ⟨set, t, rfl, ht, fun _ _ h => h, hs, fun c hc => .inl hc, fun c hc => hc, by simp⟩
  | p :: M, set, t, ht, hs, hM => by
    rw [List.foldl_cons]
    obtain ⟨h1, h2, h3⟩ := state_inv ht (p := (p.1.target, p.2.target)) (hM p (List.mem_cons_self ..))
    unfold addMatch
    dsimp only
    obtain ⟨set', t', e, i1, i2, i3, i4, i5, i6⟩ := foldl_addMatch hn x M
      (insertArc num ⟨(t.state (p.1.target, p.2.target)).2, x, p.1.out, p.1.weight + p.2.weight⟩ set)
      (t.state (p.1.target, p.2.target)).1 h1 (sorted_insertArc hn hs) (fun p' hp' => hM p' (List.mem_cons_of_mem _ hp'))
    refine ⟨set', t', e, i1, fun n q h => i2 n q (h2 n q h), i3, ?_, ?_, ?_⟩
    · intro c hc
      rcases i4 c hc with h | ⟨p', hp', h⟩
      · rcases mem_insertArc.mp h with h | h
        · right
          refine ⟨p, List.mem_cons_self .., ?_⟩
          rw [h]
          exact ⟨rfl, rfl, rfl, i2 _ _ h3⟩
        · exact .inl h
      · exact .inr ⟨p', List.mem_cons_of_mem _ hp', h⟩
    · intro c hc
      exact i5 c (mem_insertArc.mpr (.inr hc))
    · intro p' hp'
      rcases List.mem_cons.mp hp' with rfl | hp'
      · exact ⟨_, i5 _ (mem_insertArc.mpr (.inl rfl)), rfl, rfl, rfl, i2 _ _ h3⟩
      · exact i6 p' hp'

/-- A set for a deterministic rule has increasing outputs. -/
theorem Right.increasing {r : Rules} {spec : RuleSpec} (hn : Function.Injective num) (hr : RInv num r spec) (hf : spec.Fine)
    (hd : spec.Deterministic) {s : RState} {x : Sym} {set : List Arc} (h : Right num r.decode spec s x set) :
    Increasing num set := by
  have hp : set.Pairwise fun a b => (a ∈ set ∧ b ∈ set) ∧ arcLess num a b = true := by
    have := h.sorted
    unfold Sorted at this
    rw [List.pairwise_iff_getElem] at this ⊢
    intro i j hi hj hij
    exact ⟨⟨List.getElem_mem _, List.getElem_mem _⟩, this i j hi hj hij⟩
  refine List.Pairwise.imp ?_ hp
  rintro a b ⟨⟨ha, hb⟩, hlt⟩
  obtain ⟨ha1, qa, ha2, ha3⟩ := h.sound a ha
  obtain ⟨hb1, qb, hb2, hb3⟩ := h.sound b hb
  rw [arcLess_iff, ha1, hb1] at hlt
  rcases hlt with h0 | ⟨_, h0 | ⟨h0, h1⟩⟩
  · omega
  · exact h0
  · exfalso
    have ho := hn h0
    rw [← ho] at hb3
    obtain ⟨e1, e2⟩ := step_det spec hf hd ha3 hb3
    subst e2
    have := decode_inj r spec hr _ _ _ ha2 hb2
    omega

theorem TableInv.mono {da db da' db' : Nat → Option RState} {spec : RuleSpec} {t : PairTable} (h : TableInv num da db spec t)
    (ha : Grows da da') (hb : Grows db db') : TableInv num da' db' spec t ∧
      Grows (tableDecode da db t) (tableDecode da' db' t) := by
  have hg : Grows (tableDecode da db t) (tableDecode da' db' t) := by
    intro n s hs
    rw [tableDecode_eq] at *
    obtain ⟨p, s1, s2, h1, h2, h3, h4⟩ := hs
    exact ⟨p, s1, s2, h1, ha _ _ h2, hb _ _ h3, h4⟩
  refine ⟨⟨h.numbers, ?_, h.length, h.first, ?_⟩, hg⟩
  · intro p hp
    obtain ⟨s, s', h1, h2⟩ := h.valid p hp
    exact ⟨s, s', ha _ _ h1, hb _ _ h2⟩
  · intro n m x set hm hx s hs
    rw [tableDecode_eq] at hs
    obtain ⟨p, s1, s2, h1, h2, h3, h4⟩ := hs
    obtain ⟨u, u', h5, h6⟩ := h.valid p (List.mem_of_getElem? h1)
    have e1 := ha _ _ h5
    have e2 := hb _ _ h6
    rw [e1] at h2
    rw [e2] at h3
    injection h2 with h2
    injection h3 with h3
    subst h2 h3
    exact (h.sets n m x set hm hx s (tableDecode_eq.mpr ⟨p, u, u', h1, h5, h6, h4⟩)).mono hg

theorem TableInv.putSet {da db : Nat → Option RState} {spec : RuleSpec} {t : PairTable} (h : TableInv num da db spec t) {n : Nat}
    {x : Sym} {set : List Arc} (hs : ∀ s, tableDecode da db t n = some s → Right num (tableDecode da db t) spec s x set) :
    TableInv num da db spec { t with sets := t.sets.modify n fun m => mapPut m x set } := by
  refine ⟨h.numbers, h.valid, by simp [h.length], h.first, ?_⟩
  intro k m y set' hm hy s hd
  dsimp only at hm
  have hd' : tableDecode da db t k = some s := hd
  have hgoal : Right num (tableDecode da db t) spec s y set' := by
    rw [List.getElem?_modify] at hm
    obtain ⟨m0, h0, h1⟩ := Option.map_eq_some_iff.mp hm
    by_cases hk : n = k
    · rw [if_pos hk] at h1
      subst hk h1
      rw [mapGet_put] at hy
      split_ifs at hy with hyx
      · injection hy with hy
        subst hyx hy
        exact hs s hd'
      · exact h.sets _ _ _ _ h0 hy s hd'
    · rw [if_neg hk] at h1
      have h1 : m0 = m := h1
      subst h1
      exact h.sets _ _ _ _ h0 hy s hd'
  exact hgoal

/-- The answer to a request is right. -/
theorem get_right (hn : Function.Injective num) : ∀ (r : Rules) (spec : RuleSpec), RInv num r spec → spec.Fine → ∀ n s x,
    r.decode n = some s → ∃ set r', r.get num n x = .ok (set, r') ∧ RInv num r' spec ∧ Grows r.decode r'.decode ∧
      Right num r'.decode spec s x set
  | .rule f sy, .both _ _, hr, _, _, _, _, _ => hr.elim
  | .pair a b t, .one g, hr, _, _, _, _, _ => hr.elim
  | .rule f sy, .one g, hr, hf, n, s, x, hs => by
    obtain ⟨hl, rfl⟩ := hr
    rw [Rules.decode] at hs
    split_ifs at hs with hlt
    injection hs with hs
    subst hs
    have hlt' : n < g.states.length := by rw [← hl.length]; exact hlt
    obtain ⟨set, f', e, h1, h2, h3⟩ := leaf_get hl hlt' x
    have hdec : ∀ k : Nat, (Rules.rule f' g.alphabet).decode k = if k < g.states.length then some (.one k) else none := by
      intro k
      rw [Rules.decode, h1.length]
    refine ⟨set, .rule f' g.alphabet, by rw [Rules.get, e]; rfl, ⟨h1, rfl⟩, ?_, h2, ?_, ?_⟩
    · intro k q hk
      rw [hdec, ← hl.length]
      exact hk
    · intro c hc
      obtain ⟨h4, h5⟩ := (h3 c).mp hc
      refine ⟨h4, .one c.target, ?_, h5⟩
      rw [hdec, if_pos]
      rcases h5 with ⟨_, h6⟩ | ⟨_, _, d, h6, _, _, h7⟩
      · exact hf.wf.targets n (Arc.mk c.target x c.out c.weight) h6
      · rw [← h7]; exact hf.wf.targets n d h6
    · intro o w q hq
      match q with
      | .both _ _ => exact hq.elim
      | .one k =>
        have hq : RuleStep g n x o w k := hq
        refine ⟨⟨k, x, o, w⟩, (h3 _).mpr ⟨rfl, hq⟩, rfl, rfl, rfl, ?_⟩
        rw [hdec, if_pos]
        rcases hq with ⟨_, h6⟩ | ⟨_, _, d, h6, _, _, h7⟩
        · exact hf.wf.targets n (Arc.mk k x o w) h6
        · rw [← h7]; exact hf.wf.targets n d h6
  | .pair a b t, .both ya yb, hr, hf, n, s, x, hs => by
    obtain ⟨ha, hb, ht⟩ := hr
    obtain ⟨hfa, hfb, hda, hdb⟩ := hf
    rw [decode_pair] at hs ⊢
    have hs0 := hs
    rw [tableDecode_eq] at hs
    obtain ⟨p, s1, s2, h1, h2, h3, h4⟩ := hs
    have hlt : n < t.sets.length := by rw [ht.length]; exact (List.getElem?_eq_some_iff.mp h1).1
    have hset : t.sets[n]? = some t.sets[n] := List.getElem?_eq_getElem hlt
    rw [Rules.get, h1, hset]
    dsimp only
    cases hc : mapGet t.sets[n] x with
    | some set =>
      refine ⟨set, _, rfl, ⟨ha, hb, ht⟩, ?_, ?_⟩
      · rw [decode_pair]; exact Grows.refl _
      · rw [decode_pair]; exact ht.sets n _ x set hset hc s hs0
    | none =>
      dsimp only
      obtain ⟨A, a', ea, ia, ga, ra⟩ := get_right hn a ya ha hfa p.1 s1 x h2
      obtain ⟨B, b', eb, ib, gb, rb⟩ := get_right hn b yb hb hfb p.2 s2 x h3
      rw [ea, Outcome.bind, eb, Outcome.bind]
      dsimp only
      obtain ⟨ht', hgt⟩ := ht.mono ga gb
      obtain ⟨M, hM, hm⟩ := mergeLoop_eq hn x A (ra.increasing hn ia hfa hda) B (rb.increasing hn ib hfb hdb)
      obtain ⟨set', t', e, i1, i2, i3, i4, _, i6⟩ := foldl_addMatch hn x M [] t ht' List.Pairwise.nil (by
        intro q hq
        obtain ⟨hq1, hq2, _⟩ := (hm q.1 q.2).mp hq
        obtain ⟨_, u, hu, _⟩ := ra.sound _ hq1
        obtain ⟨_, v, hv, _⟩ := rb.sound _ hq2
        exact ⟨u, v, hu, hv⟩)
      rw [hM, e]
      dsimp only
      have hright : Right num (tableDecode a'.decode b'.decode t') (.both ya yb) s x set' := by
        refine ⟨i3, ?_, ?_⟩
        · intro c hcm
          rcases i4 c hcm with h | ⟨q, hq, c1, c2, c3, c4⟩
          · cases h
          · obtain ⟨hq1, hq2, hq3⟩ := (hm q.1 q.2).mp hq
            obtain ⟨_, u, hu, su⟩ := ra.sound _ hq1
            obtain ⟨_, v, hv, sv⟩ := rb.sound _ hq2
            refine ⟨c1, .both u v, tableDecode_eq.mpr ⟨_, u, v, c4, hu, hv, rfl⟩, ?_⟩
            rw [h4]
            refine ⟨q.1.weight, q.2.weight, ?_, ?_, c3⟩
            · rw [c2]; exact su
            · rw [c2, hq3]; exact sv
        · intro o w q hq
          rw [h4] at hq
          match q with
          | .one _ => exact hq.elim
          | .both u v =>
            obtain ⟨w1, w2, hw1, hw2, hw⟩ := hq
            obtain ⟨c1, m1, _, o1, wt1, d1⟩ := ra.complete _ _ _ hw1
            obtain ⟨c2, m2, _, o2, wt2, d2⟩ := rb.complete _ _ _ hw2
            obtain ⟨c, hcm, e1, e2, e3, e4⟩ := i6 (c1, c2) ((hm c1 c2).mpr ⟨m1, m2, by rw [o1, o2]⟩)
            exact ⟨c, hcm, e1, by rw [e2, ← o1], by rw [e3, hw, ← wt1, ← wt2], tableDecode_eq.mpr ⟨_, u, v, e4, d1, d2, rfl⟩⟩
      have hgrow : Grows (tableDecode a.decode b.decode t) (tableDecode a'.decode b'.decode t') := hgt.trans (tableDecode_grows i2)
      refine ⟨set', _, rfl, ⟨ia, ib, i1.putSet ?_⟩, ?_, ?_⟩
      · intro s' hs'
        rw [hgrow _ _ hs0] at hs'
        injection hs' with hs'
        rw [← hs']; exact hright
      · rw [decode_pair]; exact hgrow
      · rw [decode_pair]; exact hright

theorem getFinal_right : ∀ (r : Rules) (spec : RuleSpec), RInv num r spec → ∀ n s, r.decode n = some s →
    ∃ v, r.getFinal n = .ok v ∧ ∀ w, v = some w ↔ spec.Final s w
  | .rule f sy, .both _ _, hr, _, _, _ => hr.elim
  | .pair a b t, .one g, hr, _, _, _ => hr.elim
  | .rule f sy, .one g, hr, n, s, hs => by
    obtain ⟨hl, rfl⟩ := hr
    rw [Rules.decode] at hs
    split_ifs at hs with hlt
    injection hs with hs
    subst hs
    refine ⟨g.final n, ?_, fun w => Iff.rfl⟩
    rw [Rules.getFinal, Fst.getFinal, if_neg (by omega), hl.finals]
    rw [hl.length] at hlt
    rw [List.getElem?_map, List.getElem?_range hlt]
    rfl
  | .pair a b t, .both ya yb, hr, n, s, hs => by
    obtain ⟨ha, hb, ht⟩ := hr
    rw [decode_pair, tableDecode_eq] at hs
    obtain ⟨p, s1, s2, h1, h2, h3, rfl⟩ := hs
    obtain ⟨v1, e1, f1⟩ := getFinal_right a ya ha _ _ h2
    obtain ⟨v2, e2, f2⟩ := getFinal_right b yb hb _ _ h3
    rw [Rules.getFinal, h1]
    dsimp only
    rw [e1, Outcome.bind, e2, Outcome.bind]
    refine ⟨_, rfl, ?_⟩
    intro w
    show _ ↔ ∃ w1 w2, ya.Final s1 w1 ∧ yb.Final s2 w2 ∧ w = w1 + w2
    simp only [← f1, ← f2]
    cases v1 <;> cases v2 <;> simp [addFinal, eq_comm]

/-! ## The theorem -/

/-- The rules as the code builds them. -/
def RuleSpec.build (num : Sym → Nat) : RuleSpec → Rules
  | .one g => .ofGraph num g
  | .both a b => .both (a.build num) (b.build num)

theorem build_right (hn : Function.Injective num) : ∀ (spec : RuleSpec), spec.Fine →
    RInv num (spec.build num) spec ∧ (spec.build num).decode 0 = some spec.start
  | .one g, h => by
    have hb := build_inv hn h
    refine ⟨⟨hb, rfl⟩, ?_⟩
    rw [RuleSpec.build, Rules.ofGraph, Rules.decode, if_pos]
    · rfl
    · rw [hb.length]; exact h.wf.nonempty
  | .both a b, h => by
    obtain ⟨ha1, ha2⟩ := build_right hn a h.1
    obtain ⟨hb1, hb2⟩ := build_right hn b h.2.1
    refine ⟨⟨ha1, hb1, ?_⟩, ?_⟩
    · refine ⟨?_, ?_, rfl, rfl, ?_⟩
      · intro p n
        constructor
        · intro hp
          have := mapGet_mem hp
          simp only [List.mem_singleton, Prod.mk.injEq] at this
          rw [this.1, this.2]; rfl
        · intro hp
          cases n with
          | zero =>
            have : (0, 0) = p := by simpa using hp
            subst this; rfl
          | succ n => simp at hp
      · intro p hp
        rw [List.mem_singleton.mp hp]
        exact ⟨_, _, ha2, hb2⟩
      · intro n m x set hm hx
        have := List.mem_of_getElem? hm
        rw [List.mem_singleton.mp this] at hx
        cases hx
    · rw [RuleSpec.build, Rules.both, decode_pair, tableDecode_eq]
      exact ⟨(0, 0), _, _, rfl, ha2, hb2, rfl⟩

/-- The rules after a sequence of requests; a request that throws changes nothing. -/
def after (num : Sym → Nat) : List (Nat × Sym) → Rules → Rules
  | [], r => r
  | q :: qs, r => match r.get num q.1 q.2 with
    | .ok (_, r') => after num qs r'
    | _ => after num qs r

theorem get_none : ∀ (r : Rules) (spec : RuleSpec), RInv num r spec → ∀ n x, r.decode n = none → r.get num n x = .throws
  | .rule f sy, spec, _, n, x, h => by
    rw [Rules.decode] at h
    split_ifs at h with hlt
    rw [Rules.get, Fst.get, List.getElem?_eq_none (by omega)]
    rfl
  | .pair a b t, .one _, hr, _, _, _ => hr.elim
  | .pair a b t, .both ya yb, hr, n, x, h => by
    rw [Rules.get]
    cases hp : t.pairs[n]? with
    | none => rfl
    | some p =>
      obtain ⟨s, s', h1, h2⟩ := hr.2.2.valid p (List.mem_of_getElem? hp)
      rw [decode_pair, tableDecode_eq.mpr ⟨p, s, s', hp, h1, h2, rfl⟩] at h
      cases h

theorem after_right (hn : Function.Injective num) {spec : RuleSpec} (hf : spec.Fine) : ∀ (qs : List (Nat × Sym)) (r : Rules),
    RInv num r spec → RInv num (after num qs r) spec ∧ Grows r.decode (after num qs r).decode
  | [], r, h => ⟨h, Grows.refl _⟩
  | q :: qs, r, h => by
    rw [after]
    cases hd : r.decode q.1 with
    | none =>
      rw [get_none r spec h _ _ hd]
      exact after_right hn hf qs r h
    | some s =>
      obtain ⟨set, r', e, h1, h2, _⟩ := get_right hn r spec h hf q.1 s q.2 hd
      rw [e]
      obtain ⟨i1, i2⟩ := after_right hn hf qs r' h1
      exact ⟨i1, h2.trans i2⟩

/-- C32.  Whatever has been asked before, every state number of the rules stands for a tuple of states, one for each rule;
state number 0 stands for the start states and different numbers for different tuples.  The final weight of a state is the sum of
those of the rules, and it is not final if one of them is not.  The transitions for a symbol are those that all rules have in
common, with the sum of their weights; they lead to state numbers with the right meaning, and no number that was in use before
changes its meaning. -/
theorem C32 (hn : Function.Injective num) (spec : RuleSpec) (hf : spec.Fine) (history : List (Nat × Sym)) :
    ∃ meaning : Nat → Option RState, meaning 0 = some spec.start ∧
      (∀ n n' s, meaning n = some s → meaning n' = some s → n = n') ∧
      (∀ n x, meaning n = none → (after num history (spec.build num)).get num n x = .throws) ∧
      ∀ n s, meaning n = some s →
        (∃ v, (after num history (spec.build num)).getFinal n = .ok v ∧ ∀ w, v = some w ↔ spec.Final s w) ∧
        ∀ x, ∃ set r', (after num history (spec.build num)).get num n x = .ok (set, r') ∧
          ∃ meaning' : Nat → Option RState, (∀ n s, meaning n = some s → meaning' n = some s) ∧
            (∀ n n' s, meaning' n = some s → meaning' n' = some s → n = n') ∧
            (∀ c ∈ set, c.inp = x ∧ ∃ q, meaning' c.target = some q ∧ spec.Step s x c.out c.weight q) ∧
            ∀ o w q, spec.Step s x o w q → ∃ c ∈ set, c.out = o ∧ c.weight = w ∧ meaning' c.target = some q := by
  obtain ⟨h1, h2⟩ := build_right hn spec hf
  obtain ⟨h3, h4⟩ := after_right hn hf history _ h1
  refine ⟨_, h4 _ _ h2, decode_inj _ _ h3, fun n x => get_none _ _ h3 n x, ?_⟩
  intro n s hs
  refine ⟨getFinal_right _ _ h3 n s hs, ?_⟩
  intro x
  obtain ⟨set, r', e, i1, i2, i3⟩ := get_right hn _ spec h3 hf n s x hs
  refine ⟨set, r', e, r'.decode, i2, decode_inj _ _ i1, i3.sound, ?_⟩
  intro o w q hq
  obtain ⟨c, c1, _, c3⟩ := i3.complete o w q hq
  exact ⟨c, c1, c3⟩

end Hfst.Compose
