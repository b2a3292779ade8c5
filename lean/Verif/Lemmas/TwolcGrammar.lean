import Verif.Lemmas.TwolcRules

/-!
# Lemmas about the rules of a two-level grammar: containers and conflicts
-/
namespace Hfst.TwolcRule
open Hfst.Basic (Sym mapGet mapPut setInsert)

variable {L : Lib}

/-! ### Maps -/

theorem get_put {α β : Type} [DecidableEq α] (m : List (α × β)) (k j : α) (v : β) :
    mapGet (mapPut m k v) j = if j = k then some v else mapGet m j := by
  unfold mapGet mapPut
  by_cases h : j = k
  · subst h
    simp
  · rw [if_neg h, List.find?_cons_of_neg (by simpa using fun e : k = j => h e.symm)]
    congr 1
    induction m with
    | nil => rfl
    | cons e m ih =>
      by_cases he : e.1 = j
      · rw [List.filter_cons_of_pos (by simpa [he] using h), List.find?_cons_of_pos (by simpa using he), List.find?_cons_of_pos (by simpa using he)]
      · rw [List.find?_cons_of_neg (by simpa using he)]
        by_cases hk : e.1 = k
        · rw [List.filter_cons_of_neg (by simpa using hk), ih]
        · rw [List.filter_cons_of_pos (by simpa using hk), List.find?_cons_of_neg (by simpa using he), ih]

theorem get_mem {α β : Type} [DecidableEq α] {m : List (α × β)} {k : α} {v : β} (h : mapGet m k = some v) : (k, v) ∈ m := by
  unfold mapGet at h
  obtain ⟨e, he, rfl⟩ := Option.map_eq_some_iff.1 h
  have h1 := List.find?_some he
  have h2 := List.mem_of_find?_eq_some he
  simp only [decide_eq_true_eq] at h1
  rw [← h1]
  exact h2

/-! ### Groups -/

/-- Each rule is in a group. -/
def Grouped (g : Grammar L) : Prop :=
  (∀ e ∈ g.groups, mapGet g.groups e.1 = some e.2) ∧ ∀ k < g.heap.length, ∃ e ∈ g.groups, k ∈ e.2

theorem grouped_insert {g g' : Grammar L} {name : Sym} {k : Nat} (h : Grouped g) (hg : g'.groups = g.groups)
    (hl : g'.heap.length = g.heap.length + 1) (hk : k = g.heap.length) : Grouped (g'.insertGroup name k) := by
  unfold Grammar.insertGroup
  rw [hg]
  generalize originalName name = n
  refine ⟨?_, ?_⟩
  · intro e he
    rw [get_put]
    simp only [mapPut, List.mem_cons, List.mem_filter, decide_eq_true_eq] at he
    rcases he with rfl | ⟨he, hne⟩
    · rw [if_pos rfl]
    · rw [if_neg hne]
      exact h.1 e he
  · intro i hi
    rw [hl] at hi
    by_cases hik : i = k
    · refine ⟨_, List.mem_cons_self .., ?_⟩
      rw [hik]
      simp only [setInsert]
      split
      · assumption
      · exact List.mem_cons_self ..
    · obtain ⟨e, he, hie⟩ := h.2 i (by omega)
      by_cases hn : e.1 = n
      · refine ⟨_, List.mem_cons_self .., ?_⟩
        have := h.1 e he
        rw [hn] at this
        rw [this]
        simp only [Option.getD_some, setInsert]
        split
        · exact hie
        · exact List.mem_cons_of_mem _ hie
      · exact ⟨e, List.mem_cons_of_mem _ (List.mem_filter.2 ⟨he, by simpa using hn⟩), hie⟩

theorem foldl_intersect (R : L.Right) (w : List Letter) : ∀ (v : List L.T) (t : L.T),
    L.lang (v.foldl L.intersect t) w ↔ L.lang t w ∧ ∀ x ∈ v, L.lang x w
  | [], t => by simp
  | a :: v, t => by
    rw [List.foldl_cons, foldl_intersect R w v, R.intersect]
    simp only [List.mem_cons, forall_eq_or_imp]
    exact ⟨fun h => ⟨h.1.1, h.1.2, h.2⟩, fun h => ⟨⟨h.1, h.2.1⟩, h.2.2⟩⟩

/-- What the rules of a grammar say, as they are now. -/
def SaysAll (heap : List (Rule L)) (w : List Letter) : Prop := ∀ x ∈ heap, x.isEmpty = false → Says x.kind x.C x.P w

theorem accepted_iff (R : L.Right) {g : Grammar L} (hg : Grouped g) (hv : ∀ (k : Nat) x, g.heap[k]? = some x → x.isEmpty = false → k ∈ g.vec)
    (hw : ∀ x ∈ g.heap, x.Wf) {w : List Letter} (hp : Pairs L w) : AcceptedByAll g.stored w ↔ SaysAll g.heap w := by
  unfold AcceptedByAll Grammar.stored SaysAll
  constructor
  · intro h x hx he
    obtain ⟨k, hk, rfl⟩ := List.mem_iff_getElem.1 hx
    have hk' : g.heap[k]? = some g.heap[k] := List.getElem?_eq_getElem hk
    obtain ⟨e, heg, hke⟩ := hg.2 k hk
    have hm : (g.heap[k]).compile L ∈ g.members e.2 := by
      unfold Grammar.members
      refine List.mem_filterMap.2 ⟨k, hke, ?_⟩
      rw [hk', Option.bind_some, if_neg (by rw [he]; exact Bool.false_ne_true), Grammar.compiled, if_pos (hv k _ hk' he)]
    have := h (e.1, (g.members e.2).foldl L.intersect (L.star L.any)) (List.mem_filterMap.2 ⟨e, heg, by
      dsimp only
      rw [if_neg (fun e => by rw [e] at hm; cases hm)]⟩)
    rw [foldl_intersect R] at this
    exact (compile_lang R (hw _ hx).1 (hw _ hx).2 hp).1 (this.2 _ hm)
  · intro h t ht
    obtain ⟨e, heg, hs⟩ := List.mem_filterMap.1 ht
    dsimp only at hs
    by_cases hn : g.members e.2 = []
    · rw [if_pos hn] at hs
      cases hs
    · rw [if_neg hn] at hs
      cases hs
      dsimp only
      rw [foldl_intersect R, star_any R]
      refine ⟨hp, ?_⟩
      intro t ht
      unfold Grammar.members at ht
      obtain ⟨k, hk, hkt⟩ := List.mem_filterMap.1 ht
      cases hx : g.heap[k]? with
      | none => rw [hx] at hkt; cases hkt
      | some x =>
        rw [hx, Option.bind_some] at hkt
        cases he : x.isEmpty with
        | true => rw [he, if_pos rfl] at hkt; cases hkt
        | false =>
          rw [he, if_neg Bool.false_ne_true, Grammar.compiled, if_pos (hv k x hx he)] at hkt
          cases hkt
          have hxm := List.mem_of_getElem? hx
          exact (compile_lang R (hw _ hxm).1 (hw _ hxm).2 hp).2 (h x hxm he)

/-! ### Conflicts -/

theorem wbFst_lang (R : L.Right) (hb : L.declared boundarySym boundarySym) (u : List Letter) :
    L.lang (wbFst L) u ↔ ∃ v, u = one (boundarySym, boundarySym) ++ v ++ one (boundarySym, boundarySym) ∧
      ∀ x ∈ v, (Valid L x ∧ x ≠ .pair boundarySym boundarySym) ∨ x = .diamond := by
  have hs : ∀ v, L.lang (L.star (L.disjunct (L.subtract L.any (L.pair boundarySym boundarySym)) L.diamond)) v ↔
      ∀ x ∈ v, (Valid L x ∧ x ≠ .pair boundarySym boundarySym) ∨ x = .diamond := by
    intro v
    have h1 : ∀ w, L.lang (L.disjunct (L.subtract L.any (L.pair boundarySym boundarySym)) L.diamond) w ↔
        ∃ x, w = [x] ∧ ((Valid L x ∧ x ≠ .pair boundarySym boundarySym) ∨ x = .diamond) := by
      intro w
      rw [R.disjunct, R.subtract, R.any, R.pair _ _ hb, R.diamond]
      constructor
      · rintro (⟨⟨x, hx, rfl⟩, hn⟩ | rfl)
        · exact ⟨x, rfl, Or.inl ⟨hx, fun e => hn (by rw [e])⟩⟩
        · exact ⟨_, rfl, Or.inr rfl⟩
      · rintro ⟨x, rfl, ⟨hx, hn⟩ | rfl⟩
        · exact Or.inl ⟨⟨x, hx, rfl⟩, fun e => hn (List.cons.inj e).1⟩
        · exact Or.inr rfl
    rw [R.star]
    constructor
    · rintro ⟨l, hl, rfl⟩ x hx
      obtain ⟨w, hw, hxw⟩ := List.mem_flatten.1 hx
      obtain ⟨y, rfl, hy⟩ := (h1 w).1 (hl w hw)
      rw [List.mem_singleton.1 hxw]
      exact hy
    · intro h
      refine ⟨v.map fun x => [x], ?_, ?_⟩
      · intro w hw
        obtain ⟨x, hx, rfl⟩ := List.mem_map.1 hw
        exact (h1 _).2 ⟨x, rfl, h x hx⟩
      · clear h
        induction v with
        | nil => rfl
        | cons a w ih => rw [List.map_cons, List.flatten_cons, ← ih]; rfl
  unfold wbFst
  simp only [R.concatenate, R.pair _ _ hb, hs]
  constructor
  · rintro ⟨_, _, ⟨_, v, rfl, hv, rfl⟩, rfl, rfl⟩
    exact ⟨v, rfl, hv⟩
  · rintro ⟨v, rfl, hv⟩
    exact ⟨one (boundarySym, boundarySym) ++ v, _, ⟨_, v, rfl, hv, rfl⟩, rfl, rfl⟩

/-- With marks around nothing: places inside of words. -/
theorem wbFst_marked (R : L.Right) (hb : L.declared boundarySym boundarySym) {l m r : List Letter} (hl : Pairs L l) (hr : Pairs L r) :
    (L.lang (wbFst L) (marked l m r) → Inside l r) ∧ (Inside l r → L.lang (wbFst L) (marked l [] r)) := by
  constructor
  · rw [wbFst_lang R hb]
    rintro ⟨v, e, hv⟩
    unfold marked one at e
    cases l with
    | nil => simp at e
    | cons a l' =>
      simp only [List.cons_append, List.nil_append, List.cons.injEq] at e
      obtain ⟨rfl, e⟩ := e
      cases hrr : r.reverse with
      | nil =>
        have : r = [] := by simpa using hrr
        subst this
        have e' := congrArg List.reverse e
        simp at e'
      | cons b r' =>
        have : r = r'.reverse ++ [b] := by rw [← List.reverse_reverse r, hrr, List.reverse_cons]
        subst this
        have e' : (l' ++ .diamond :: (m ++ .diamond :: r'.reverse)) ++ [b] = v ++ [.pair boundarySym boundarySym] := by simpa using e
        obtain ⟨e1, e2⟩ := List.append_inj' e' rfl
        simp only [List.cons.injEq, and_true] at e2
        subst e2
        refine ⟨l', r'.reverse, rfl, rfl, ?_, ?_⟩
        · intro h
          rcases hv _ (e1 ▸ List.mem_append_left _ h) with h | h
          · exact h.2 rfl
          · cases h
        · intro h
          rcases hv _ (e1 ▸ List.mem_append_right _ (List.mem_cons_of_mem _ (List.mem_append_right _ (List.mem_cons_of_mem _ h)))) with h | h
          · exact h.2 rfl
          · cases h
  · rintro ⟨l', r', rfl, rfl, h1, h2⟩
    rw [wbFst_lang R hb]
    refine ⟨l' ++ .diamond :: .diamond :: r', by simp [marked, one], ?_⟩
    intro x hx
    rw [pairs_append] at hl hr
    simp only [List.mem_append, List.mem_cons] at hx
    rcases hx with h | h | h | h
    · exact Or.inl ⟨hl.2 x h, fun e => h1 (e ▸ h)⟩
    · exact Or.inr h
    · exact Or.inr h
    · exact Or.inl ⟨hr.1 x h, fun e => h2 (e ▸ h)⟩

theorem Rule.Wf.pairs {x : Rule L} (h : x.Wf) {l r : List Letter} (hp : x.P l r) : Pairs L l ∧ Pairs L r := by
  have h2 := (Rule.wf_of h.1 h.2).2.2 l r
  exact ⟨(h2.1 hp).1, (h2.1 hp).2.1⟩

theorem conflicts_iff (R : L.Right) (hb : L.declared boundarySym boundarySym) {x y : Rule L} (hx : x.Wf) (hy : y.Wf) :
    x.conflicts L y = true ↔ ∃ l r, Inside l r ∧ x.P l r ∧ y.P l r := by
  unfold Rule.conflicts wbize
  rw [R.common]
  constructor
  · rintro ⟨u, hu, hv⟩
    rw [R.intersect] at hv
    obtain ⟨l, m, r, a, b, c, rfl, p⟩ := (hx.2 u).1 hu
    exact ⟨l, r, (wbFst_marked R hb a c).1 hv.2, p, (hy.2.at a b c).1 hv.1⟩
  · rintro ⟨l, r, hi, h1, h2⟩
    obtain ⟨a, c⟩ := hx.pairs h1
    exact ⟨marked l [] r, h1, (R.intersect _ _ _).2 ⟨h2, (wbFst_marked R hb (m := []) a c).2 hi⟩⟩

theorem resolvable_iff (R : L.Right) (hb : L.declared boundarySym boundarySym) {x y : Rule L} (hx : x.Wf) (hy : y.Wf) :
    x.resolvable L y = true ↔ ∀ l r, Inside l r → y.P l r → x.P l r := by
  unfold Rule.resolvable isSubset wbize
  rw [R.empty]
  constructor
  · intro h l r hi hp
    obtain ⟨a, c⟩ := hy.pairs hp
    by_contra hn
    exact h (marked l [] r) ((R.subtract _ _ _).2 ⟨(R.intersect _ _ _).2 ⟨hp, (wbFst_marked R hb (m := []) a c).2 hi⟩, hn⟩)
  · intro h u hu
    rw [R.subtract, R.intersect] at hu
    obtain ⟨l, m, r, a, b, c, rfl, p⟩ := (hy.2 u).1 hu.1.1
    exact hu.2 ((hx.2.at a b c).2 (h l r ((wbFst_marked R hb a c).1 hu.1.2) p))

/-- `y` is `x` with a part of its places. -/
def Part (x y : Rule L) : Prop :=
  y.Wf ∧ y.kind = x.kind ∧ y.isEmpty = x.isEmpty ∧ y.centerPair = x.centerPair ∧ y.center = x.center ∧ ∀ l r, y.P l r → x.P l r

theorem Part.refl {x : Rule L} (h : x.Wf) : Part x x := ⟨h, rfl, rfl, rfl, rfl, fun _ _ => id⟩

theorem Part.trans {x y z : Rule L} (h : Part x y) (k : Part y z) : Part x z :=
  ⟨k.1, k.2.1.trans h.2.1, k.2.2.1.trans h.2.2.1, k.2.2.2.1.trans h.2.2.2.1, k.2.2.2.2.1.trans h.2.2.2.2.1, fun l r p => h.2.2.2.2.2 l r (k.2.2.2.2.2 l r p)⟩

theorem part_restrict (R : L.Right) {x y : Rule L} (hx : x.Wf) (hy : y.Wf) : Part x (x.restrict L y) :=
  ⟨(hx.restrict R hy).1, rfl, rfl, rfl, rfl, fun l r p => ((hx.restrict R hy).2 l r |>.1 p).1⟩

/-- Changes of the rules that make places fewer. -/
def Parts (h h' : List (Rule L)) : Prop := h'.length = h.length ∧ ∀ (k : Nat) x, h[k]? = some x → ∃ y, h'[k]? = some y ∧ Part x y

theorem Parts.refl {h : List (Rule L)} (hw : ∀ x ∈ h, x.Wf) : Parts h h :=
  ⟨rfl, fun _ x hx => ⟨x, hx, Part.refl (hw x (List.mem_of_getElem? hx))⟩⟩

theorem Parts.wf {h h' : List (Rule L)} (p : Parts h h') : ∀ x ∈ h', x.Wf := by
  intro x hx
  obtain ⟨k, hk, rfl⟩ := List.mem_iff_getElem.1 hx
  obtain ⟨y, hy, q⟩ := p.2 k (h[k]'(by rw [← p.1]; exact hk)) (List.getElem?_eq_getElem _)
  rw [List.getElem?_eq_getElem hk] at hy
  cases hy
  exact q.1

theorem Parts.trans {a b c : List (Rule L)} (h : Parts a b) (k : Parts b c) : Parts a c := by
  refine ⟨k.1.trans h.1, fun i x hx => ?_⟩
  obtain ⟨y, hy, p⟩ := h.2 i x hx
  obtain ⟨z, hz, q⟩ := k.2 i y hy
  exact ⟨z, hz, p.trans q⟩

theorem Parts.back {h h' : List (Rule L)} (p : Parts h h') {k : Nat} {y : Rule L} (hy : h'[k]? = some y) : ∃ x, h[k]? = some x ∧ Part x y := by
  have hk : k < h.length := by
    rw [← p.1]
    exact (List.getElem?_eq_some_iff.1 hy).1
  obtain ⟨z, hz, q⟩ := p.2 k h[k] (List.getElem?_eq_getElem hk)
  rw [hy] at hz
  cases hz
  exact ⟨_, List.getElem?_eq_getElem hk, q⟩

theorem parts_set {h : List (Rule L)} (hw : ∀ x ∈ h, x.Wf) {k : Nat} {x y : Rule L} (hx : h[k]? = some x) (p : Part x y) : Parts h (h.set k y) := by
  refine ⟨List.length_set, fun i z hz => ?_⟩
  have hk := (List.getElem?_eq_some_iff.1 hx).1
  by_cases hi : k = i
  · subst hi
    rw [hx] at hz
    cases hz
    exact ⟨y, by rw [List.getElem?_set_self hk], p⟩
  · exact ⟨z, by rw [List.getElem?_set_ne hi]; exact hz, Part.refl (hw z (List.mem_of_getElem? hz))⟩

/-- A place is one of the rules in the positions `ks` or of the new rule. -/
def Covered (ks : List Nat) (s : List (Rule L) × Rule L × List Message) (l r : List Letter) : Prop :=
  (∃ k ∈ ks, ∃ x, s.1[k]? = some x ∧ x.P l r) ∨ s.2.1.P l r

/-- What one round does. -/
theorem leftStep_spec (R : L.Right) (hb : L.declared boundarySym boundarySym) (o : Options) (s : List (Rule L) × Rule L × List Message) (k : Nat)
    (hw : ∀ x ∈ s.1, x.Wf) (hr : s.2.1.Wf) :
    Parts s.1 (leftStep o s k).1 ∧ Part s.2.1 (leftStep o s k).2.1 ∧
    (∀ i, i ≠ k → (leftStep o s k).1[i]? = s.1[i]?) ∧
    (o.resolveLeft = false → (leftStep o s k).1 = s.1 ∧ (leftStep o s k).2.1 = s.2.1) ∧
    (∃ m, (leftStep o s k).2.2 = s.2.2 ++ m) ∧
    (∀ ks l r, k ∈ ks → Covered ks s l r → Covered ks (leftStep o s k) l r) ∧
    (o.resolveLeft = true → o.reportLeft = true → .unresolvable ∉ (leftStep o s k).2.2 →
      ∀ x, (leftStep o s k).1[k]? = some x → ∀ l r, Inside l r → x.P l r → ¬ (leftStep o s k).2.1.P l r) := by
  obtain ⟨h, r, out⟩ := s
  dsimp only at hw hr
  cases hk : h[k]? with
  | none =>
    have e : leftStep o (h, r, out) k = (h, r, out) := by
      unfold leftStep
      dsimp only
      rw [hk]
    rw [e]
    refine ⟨Parts.refl hw, Part.refl hr, fun _ _ => rfl, fun _ => ⟨rfl, rfl⟩, ⟨[], by simp⟩, fun _ _ _ _ => id, fun _ _ _ x hx => ?_⟩
    rw [hk] at hx
    cases hx
  | some it =>
    have hit := hw it (List.mem_of_getElem? hk)
    have hlen := (List.getElem?_eq_some_iff.1 hk).1
    by_cases hc : it.conflicts L r = true
    · by_cases hres : o.resolveLeft = true
      · by_cases h1 : it.resolvable L r = true
        · obtain ⟨m, e⟩ : ∃ m, leftStep o (h, r, out) k = (h.set k (it.restrict L r), r, out ++ m) := by
            unfold leftStep
            dsimp only
            rw [hk]
            dsimp only
            rw [if_pos hc, if_pos hres, if_pos h1]
            cases o.reportLeft
            · exact ⟨[], by simp⟩
            · exact ⟨[.leftConflict it.name r.name, .restricting it.name], by simp⟩
          rw [e]
          refine ⟨parts_set hw hk (part_restrict R hit hr), Part.refl hr, fun i hi => List.getElem?_set_ne (fun e => hi e.symm),
            (fun hf => by rw [hres] at hf; cases hf), ⟨m, rfl⟩, ?_, ?_⟩
          · rintro ks l r' hks (⟨j, hj, x, hx, p⟩ | p)
            · by_cases hjk : k = j
              · subst hjk
                dsimp only at hx
                rw [hk] at hx
                cases hx
                by_cases hp : r.P l r'
                · exact Or.inr hp
                · exact Or.inl ⟨k, hj, _, List.getElem?_set_self hlen, ((hit.restrict R hr).2 l r').2 ⟨p, hp⟩⟩
              · exact Or.inl ⟨j, hj, x, by dsimp only; rw [List.getElem?_set_ne hjk]; exact hx, p⟩
            · exact Or.inr p
          · intro _ _ _ x hx l r' _ p
            dsimp only at hx ⊢
            rw [List.getElem?_set_self hlen] at hx
            cases hx
            exact (((hit.restrict R hr).2 l r').1 p).2
        · by_cases h2 : r.resolvable L it = true
          · obtain ⟨m, e⟩ : ∃ m, leftStep o (h, r, out) k = (h, r.restrict L it, out ++ m) := by
              unfold leftStep
              dsimp only
              rw [hk]
              dsimp only
              rw [if_pos hc, if_pos hres, if_neg h1, if_pos h2]
              cases o.reportLeft
              · exact ⟨[], by simp⟩
              · exact ⟨[.leftConflict it.name r.name, .restricting r.name], by simp⟩
            rw [e]
            refine ⟨Parts.refl hw, part_restrict R hr hit, fun _ _ => rfl, (fun hf => by rw [hres] at hf; cases hf), ⟨m, rfl⟩, ?_, ?_⟩
            · rintro ks l r' hks (⟨j, hj, x, hx, p⟩ | p)
              · exact Or.inl ⟨j, hj, x, hx, p⟩
              · by_cases hp : it.P l r'
                · exact Or.inl ⟨k, hks, it, hk, hp⟩
                · exact Or.inr (((hr.restrict R hit).2 l r').2 ⟨p, hp⟩)
            · intro _ _ _ x hx l r' _ p q
              dsimp only at hx q
              rw [hk] at hx
              cases hx
              exact (((hr.restrict R hit).2 l r').1 q).2 p
          · obtain ⟨m, e, hm⟩ : ∃ m, leftStep o (h, r, out) k = (h, r, out ++ m) ∧ (o.reportLeft = true → .unresolvable ∈ m) := by
              unfold leftStep
              dsimp only
              rw [hk]
              dsimp only
              rw [if_pos hc, if_pos hres, if_neg h1, if_neg h2]
              cases o.reportLeft
              · exact ⟨[], by simp⟩
              · exact ⟨[.leftConflict it.name r.name, .unresolvable], by simp⟩
            rw [e]
            refine ⟨Parts.refl hw, Part.refl hr, fun _ _ => rfl, fun _ => ⟨rfl, rfl⟩, ⟨m, rfl⟩, fun _ _ _ _ => id, ?_⟩
            intro _ hrep hn
            exact absurd (List.mem_append_right _ (hm hrep)) hn
      · obtain ⟨m, e⟩ : ∃ m, leftStep o (h, r, out) k = (h, r, out ++ m) := by
          unfold leftStep
          dsimp only
          rw [hk]
          dsimp only
          rw [if_pos hc, if_neg hres]
          cases o.reportLeft
          · exact ⟨[], by simp⟩
          · exact ⟨[.leftConflict it.name r.name], by simp⟩
        rw [e]
        exact ⟨Parts.refl hw, Part.refl hr, fun _ _ => rfl, fun _ => ⟨rfl, rfl⟩, ⟨m, rfl⟩, fun _ _ _ _ => id, fun h => absurd h hres⟩
    · have e : leftStep o (h, r, out) k = (h, r, out) := by
        unfold leftStep
        dsimp only
        rw [hk]
        dsimp only
        rw [if_neg hc]
      rw [e]
      refine ⟨Parts.refl hw, Part.refl hr, fun _ _ => rfl, fun _ => ⟨rfl, rfl⟩, ⟨[], by simp⟩, fun _ _ _ _ => id, ?_⟩
      intro _ _ _ x hx l r' hi p q
      dsimp only at hx q
      rw [hk] at hx
      cases hx
      exact hc ((conflicts_iff R hb hit hr).2 ⟨l, r', hi, p, q⟩)

/-- What the whole loop does. -/
theorem leftLoop_spec (R : L.Right) (hb : L.declared boundarySym boundarySym) (o : Options) : ∀ (ks : List Nat) (s : List (Rule L) × Rule L × List Message)
    (_ : ∀ x ∈ s.1, x.Wf) (_ : s.2.1.Wf),
    Parts s.1 (ks.foldl (leftStep o) s).1 ∧ Part s.2.1 (ks.foldl (leftStep o) s).2.1 ∧
    (∀ i, i ∉ ks → (ks.foldl (leftStep o) s).1[i]? = s.1[i]?) ∧
    (o.resolveLeft = false → (ks.foldl (leftStep o) s).1 = s.1 ∧ (ks.foldl (leftStep o) s).2.1 = s.2.1) ∧
    (∃ m, (ks.foldl (leftStep o) s).2.2 = s.2.2 ++ m) ∧
    (∀ all l r, (∀ k ∈ ks, k ∈ all) → Covered all s l r → Covered all (ks.foldl (leftStep o) s) l r) ∧
    (o.resolveLeft = true → o.reportLeft = true → .unresolvable ∉ (ks.foldl (leftStep o) s).2.2 →
      ∀ k ∈ ks, ∀ x, (ks.foldl (leftStep o) s).1[k]? = some x → ∀ l r, Inside l r → x.P l r → ¬ (ks.foldl (leftStep o) s).2.1.P l r)
  | [], s, hw, hr => ⟨Parts.refl hw, Part.refl hr, fun _ _ => rfl, fun _ => ⟨rfl, rfl⟩, ⟨[], by simp⟩, fun _ _ _ _ => id, fun _ _ _ k hk => by cases hk⟩
  | k :: ks, s, hw, hr => by
    obtain ⟨a1, a2, a3, a4, ⟨m, a5⟩, a6, a7⟩ := leftStep_spec R hb o s k hw hr
    obtain ⟨b1, b2, b3, b4, ⟨n, b5⟩, b6, b7⟩ := leftLoop_spec R hb o ks (leftStep o s k) a1.wf a2.1
    rw [List.foldl_cons]
    refine ⟨a1.trans b1, a2.trans b2, ?_, ?_, ⟨m ++ n, by rw [b5, a5, List.append_assoc]⟩, ?_, ?_⟩
    · intro i hi
      rw [List.mem_cons, not_or] at hi
      rw [b3 i hi.2, a3 i hi.1]
    · intro hf
      rw [(b4 hf).1, (b4 hf).2]
      exact a4 hf
    · intro all l r hall hc
      exact b6 all l r (fun j hj => hall j (List.mem_cons_of_mem _ hj)) (a6 all l r (hall k (List.mem_cons_self ..)) hc)
    · intro h1 h2 hn j hj x hx l r hi hp
      by_cases hjk : j ∈ ks
      · exact b7 h1 h2 hn j hjk x hx l r hi hp
      · have : j = k := (List.mem_cons.1 hj).resolve_right hjk
        subst this
        rw [b3 j hjk] at hx
        intro hq
        refine a7 h1 h2 (fun hm => hn ?_) x hx l r hi hp (b2.2.2.2.2.2 l r hq)
        rw [b5]
        exact List.mem_append_left _ hm

end Hfst.TwolcRule
