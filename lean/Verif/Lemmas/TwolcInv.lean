import Verif.Lemmas.TwolcGrammar

/-!
# Lemmas about the rules of a two-level grammar: what holds after each rule
-/
namespace Hfst.TwolcRule
open Hfst.Basic (Sym mapGet mapPut setInsert)

variable {L : Lib}

/-- The container for a rule. -/
inductive How where
  | right
  | left
  | other
  deriving DecidableEq

/-- Adding a rule to its container. -/
def addElem (o : Options) (g : Grammar L) (e : How × Rule L) : Grammar L :=
  match e.1 with
  | .right => g.addRight o e.2
  | .left => g.addLeft o e.2
  | .other => g.addOther e.2

/-- Rules in this container are never changed. -/
def Static (o : Options) (h : How) : Prop :=
  h = .other ∨ (h = .right ∧ o.resolveRight = false) ∨ (h = .left ∧ o.resolveLeft = false)

/-- A new rule. -/
def Fresh (e : How × Rule L) : Prop :=
  e.2.Wf ∧ e.2.isEmpty = false ∧ (e.1 = .right → e.2.kind = .right ∧ ∀ m, e.2.C m ↔ m = one e.2.centerPair) ∧
    (e.1 = .left → e.2.kind = .left ∧ ∀ m, e.2.C m ↔ m = one e.2.centerPair)

theorem get_append {h : List (Rule L)} {x y : Rule L} {k : Nat} : (h ++ [x])[k]? = some y ↔ h[k]? = some y ∨ (k = h.length ∧ x = y) := by
  by_cases hk : k < h.length
  · rw [List.getElem?_append_left hk]
    constructor
    · exact Or.inl
    · rintro (h | ⟨h, _⟩)
      · exact h
      · omega
  · rw [List.getElem?_append_right (by omega), List.getElem?_eq_none (l := h) (by omega)]
    by_cases he : k = h.length
    · subst he
      simp
    · rw [List.getElem?_eq_none (by simp; omega)]
      simp [he]

theorem get_lt {h : List (Rule L)} {k : Nat} {x : Rule L} (e : h[k]? = some x) : k < h.length := (List.getElem?_eq_some_iff.1 e).1

/-- What holds after the rules `E`. -/
structure Inv (o : Options) (g : Grammar L) (E : List (How × Rule L)) : Prop where
  grouped : Grouped g
  vec : ∀ (k : Nat) x, g.heap[k]? = some x → x.isEmpty = false → k ∈ g.vec
  wf : ∀ x ∈ g.heap, x.Wf
  rLt : ∀ p j, mapGet g.rights p = some j → j < g.heap.length
  lLt : ∀ a ks, mapGet g.lefts a = some ks → ∀ k ∈ ks, k < g.heap.length
  lrDis : ∀ p j a ks, mapGet g.rights p = some j → mapGet g.lefts a = some ks → j ∉ ks
  rNone : ∀ p, mapGet g.rights p = none → ∀ e ∈ E, e.1 = .right → e.2.centerPair ≠ p
  rSome : o.resolveRight = true → ∀ p j, mapGet g.rights p = some j → ∃ x, g.heap[j]? = some x ∧ x.kind = .right ∧ x.isEmpty = false ∧
    (∀ m, x.C m ↔ m = one p) ∧ (∃ e ∈ E, e.1 = .right ∧ e.2.centerPair = p) ∧
    ∀ l r, x.P l r ↔ ∃ e ∈ E, e.1 = .right ∧ e.2.centerPair = p ∧ e.2.P l r
  lSome : o.resolveLeft = true → ∀ a ks, mapGet g.lefts a = some ks → ∀ k ∈ ks, ∃ x, g.heap[k]? = some x ∧ x.kind = .left ∧ x.isEmpty = false ∧
    (∀ m, x.C m ↔ m = one x.centerPair) ∧ x.centerPair.1 = a ∧
    ∃ e ∈ E, e.1 = .left ∧ e.2.centerPair = x.centerPair ∧ ∀ l r, x.P l r → e.2.P l r
  lAll : o.resolveLeft = true → ∀ e ∈ E, e.1 = .left → ∀ l r, e.2.P l r →
    ∃ ks, mapGet g.lefts e.2.centerPair.1 = some ks ∧ ∃ k ∈ ks, ∃ x, g.heap[k]? = some x ∧ x.P l r
  lOne : o.resolveLeft = true → o.reportLeft = true → .unresolvable ∉ g.out → ∀ a ks, mapGet g.lefts a = some ks → ∀ k ∈ ks, ∀ j ∈ ks, k ≠ j →
    ∀ x y, g.heap[k]? = some x → g.heap[j]? = some y → ∀ l r, Inside l r → x.P l r → ¬ y.P l r
  cover : ∀ (k : Nat) x, g.heap[k]? = some x → x.isEmpty = false → (o.resolveRight = true ∧ ∃ p, mapGet g.rights p = some k) ∨
    (o.resolveLeft = true ∧ ∃ a ks, mapGet g.lefts a = some ks ∧ k ∈ ks) ∨ ∃ e ∈ E, Static o e.1 ∧ e.2 = x
  statics : ∀ e ∈ E, Static o e.1 → ∃ k : Nat, g.heap[k]? = some e.2 ∧ (o.resolveRight = true → ∀ p, mapGet g.rights p ≠ some k) ∧
    (o.resolveLeft = true → ∀ a ks, mapGet g.lefts a = some ks → k ∉ ks)

theorem inv_init (o : Options) : Inv o (Grammar.init L) [] where
  grouped := by
    refine ⟨(fun e h => by cases h), ?_⟩
    intro k h
    exact absurd h (Nat.not_lt_zero _)
  vec := fun k x h => by simp [Grammar.init] at h
  wf := fun x h => by cases h
  rLt := fun p j h => by cases h
  lLt := fun a ks h => by cases h
  lrDis := fun p j a ks h => by cases h
  rNone := fun p _ e h => by cases h
  rSome := fun _ p j h => by cases h
  lSome := fun _ a ks h => by cases h
  lAll := fun _ e h => by cases h
  lOne := fun _ _ _ a ks h => by cases h
  cover := fun k x h => by simp [Grammar.init] at h
  statics := fun e h => by cases h

theorem mem_snoc {α : Type} {a b : α} {l : List α} : a ∈ l ++ [b] ↔ a ∈ l ∨ a = b := by simp

/-- Adding a rule that is never changed, with changes of the map for pairs that do not matter. -/
theorem inv_static {o : Options} {g : Grammar L} {E : List (How × Rule L)} (h : Inv o g E) {e : How × Rule L} (hf : Fresh e)
    (hs : e.1 = .other ∨ (e.1 = .right ∧ o.resolveRight = false)) (rights : List ((Sym × Sym) × Nat)) (out : List Message)
    (hr : (e.1 = .other ∧ rights = g.rights) ∨ (e.1 = .right ∧ rights = g.rights ∧ mapGet g.rights e.2.centerPair ≠ none) ∨
      (e.1 = .right ∧ rights = mapPut g.rights e.2.centerPair g.heap.length))
    (hout : ∀ m, m ∈ g.out → m ∈ out) :
    Inv o (Grammar.insertGroup ⟨g.heap ++ [e.2], rights, g.lefts, g.vec ++ [g.heap.length], g.groups, out⟩ e.2.name g.heap.length) (E ++ [e]) := by
  have hst : Static o e.1 := hs.elim Or.inl fun h => Or.inr (Or.inl h)
  have hnl : e.1 ≠ .left := by
    rcases hs with h | h
    · rw [h]; decide
    · rw [h.1]; decide
  have hro : o.resolveRight = true → rights = g.rights ∧ e.1 = .other := by
    intro ht
    rcases hs with h1 | h1
    · rcases hr with h2 | h2 | h2
      · exact ⟨h2.2, h1⟩
      · rw [h1] at h2; cases h2.1
      · rw [h1] at h2; cases h2.1
    · rw [h1.2] at ht; cases ht
  have hget : ∀ p j, mapGet rights p = some j → mapGet g.rights p = some j ∨ j = g.heap.length := by
    intro p j hp
    rcases hr with h2 | h2 | h2
    · exact Or.inl (h2.2 ▸ hp)
    · exact Or.inl (h2.2.1 ▸ hp)
    · rw [h2.2, get_put] at hp
      by_cases hpe : p = e.2.centerPair
      · rw [if_pos hpe] at hp
        exact Or.inr (Option.some.inj hp).symm
      · rw [if_neg hpe] at hp
        exact Or.inl hp
  refine ⟨grouped_insert h.grouped rfl (by simp) rfl, ?_, ?_, ?_, ?_, ?_, ?_, ?_, ?_, ?_, ?_, ?_, ?_⟩ <;> simp only [Grammar.insertGroup]
  · intro k x hk hx
    rcases get_append.1 hk with h1 | h1
    · exact List.mem_append_left _ (h.vec k x h1 hx)
    · exact List.mem_append_right _ (List.mem_singleton.2 h1.1)
  · intro x hx
    rcases mem_snoc.1 hx with h1 | rfl
    · exact h.wf x h1
    · exact hf.1
  · intro p j hp
    rw [List.length_append, List.length_singleton]
    rcases hget p j hp with h1 | h1
    · have := h.rLt p j h1
      omega
    · omega
  · intro a ks ha k hk
    rw [List.length_append]
    have := h.lLt a ks ha k hk
    omega
  · intro p j a ks hp ha hj
    rcases hget p j hp with h1 | h1
    · exact h.lrDis p j a ks h1 ha hj
    · have := h.lLt a ks ha j hj
      omega
  · intro p hp e' he' hre
    rcases mem_snoc.1 he' with h1 | rfl
    · refine h.rNone p ?_ e' h1 hre
      rcases hr with h2 | h2 | h2
      · exact h2.2 ▸ hp
      · exact h2.2.1 ▸ hp
      · rw [h2.2, get_put] at hp
        split at hp
        · cases hp
        · exact hp
    · rintro rfl
      rcases hr with h2 | h2 | h2
      · rw [h2.1] at hre; cases hre
      · rw [h2.2.1] at hp; exact h2.2.2 hp
      · rw [h2.2, get_put, if_pos rfl] at hp; cases hp
  · intro ht p j hp
    obtain ⟨e1, e2⟩ := hro ht
    rw [e1] at hp
    obtain ⟨x, a1, a2, a3, a4, ⟨e', a5, a6⟩, a7⟩ := h.rSome ht p j hp
    refine ⟨x, get_append.2 (Or.inl a1), a2, a3, a4, ⟨e', mem_snoc.2 (Or.inl a5), a6⟩, fun l r => (a7 l r).trans ?_⟩
    constructor
    · rintro ⟨y, hy, k⟩
      exact ⟨y, mem_snoc.2 (Or.inl hy), k⟩
    · rintro ⟨y, hy, k1, k2⟩
      rcases mem_snoc.1 hy with h3 | rfl
      · exact ⟨y, h3, k1, k2⟩
      · rw [e2] at k1; cases k1
  · intro ht a ks ha k hk
    obtain ⟨x, a1, a2, a3, a4, a5, e', a6, a7⟩ := h.lSome ht a ks ha k hk
    exact ⟨x, get_append.2 (Or.inl a1), a2, a3, a4, a5, e', mem_snoc.2 (Or.inl a6), a7⟩
  · intro ht e' he' hl l r hp
    rcases mem_snoc.1 he' with h1 | rfl
    · obtain ⟨ks, a1, k, a2, x, a3, a4⟩ := h.lAll ht e' h1 hl l r hp
      exact ⟨ks, a1, k, a2, x, get_append.2 (Or.inl a3), a4⟩
    · exact absurd hl hnl
  · intro h1 h2 hn a ks ha k hk j hj hkj x y hx hy
    have hx' := (get_append.1 hx).resolve_right fun e => by have := h.lLt a ks ha k hk; omega
    have hy' := (get_append.1 hy).resolve_right fun e => by have := h.lLt a ks ha j hj; omega
    exact h.lOne h1 h2 (fun hm => hn (hout _ hm)) a ks ha k hk j hj hkj x y hx' hy'
  · intro k x hk hx
    rcases get_append.1 hk with h1 | ⟨_, rfl⟩
    · rcases h.cover k x h1 hx with ⟨h2, p, h3⟩ | h2 | ⟨e', h2, h3⟩
      · exact Or.inl ⟨h2, p, by rw [(hro h2).1]; exact h3⟩
      · exact Or.inr (Or.inl h2)
      · exact Or.inr (Or.inr ⟨e', mem_snoc.2 (Or.inl h2), h3⟩)
    · exact Or.inr (Or.inr ⟨e, mem_snoc.2 (Or.inr rfl), hst, rfl⟩)
  · intro e' he' hs'
    rcases mem_snoc.1 he' with h1 | rfl
    · obtain ⟨k, a1, a2, a3⟩ := h.statics e' h1 hs'
      refine ⟨k, get_append.2 (Or.inl a1), fun ht p => ?_, a3⟩
      rw [(hro ht).1]
      exact a2 ht p
    · refine ⟨g.heap.length, get_append.2 (Or.inr ⟨rfl, rfl⟩), fun ht p hp => ?_, fun _ a ks ha hk => ?_⟩
      · rw [(hro ht).1] at hp
        have := h.rLt p _ hp
        omega
      · have := h.lLt a ks ha _ hk
        omega

theorem one_inj {p q : Sym × Sym} (h : one p = one q) : p = q := by
  simp only [one, List.cons.injEq, Letter.pair.injEq, and_true] at h
  exact Prod.ext h.1 h.2

theorem get_modify {h : List (Rule L)} {f : Rule L → Rule L} {j k : Nat} {y : Rule L} :
    (h.modify j f)[k]? = some y ↔ ∃ x, h[k]? = some x ∧ y = if j = k then f x else x := by
  rw [List.getElem?_modify]
  cases h[k]? with
  | none => simp
  | some x =>
    simp only [Option.some.injEq, exists_eq_left']
    split <;> exact ⟨fun e => (Option.some.inj e).symm, fun e => congrArg some e.symm⟩

theorem inv_right (R : L.Right) {o : Options} {g : Grammar L} {E : List (How × Rule L)} (h : Inv o g E) {e : How × Rule L} (hf : Fresh e)
    (he : e.1 = .right) : Inv o (g.addRight o e.2) (E ++ [e]) := by
  unfold Grammar.addRight
  cases hj : mapGet g.rights e.2.centerPair with
  | none =>
    dsimp only
    by_cases hres : o.resolveRight = true
    · have hget : ∀ p j, mapGet (mapPut g.rights e.2.centerPair g.heap.length) p = some j →
          (p = e.2.centerPair ∧ j = g.heap.length) ∨ (p ≠ e.2.centerPair ∧ mapGet g.rights p = some j) := by
        intro p j hp
        rw [get_put] at hp
        by_cases hpe : p = e.2.centerPair
        · rw [if_pos hpe] at hp
          exact Or.inl ⟨hpe, (Option.some.inj hp).symm⟩
        · rw [if_neg hpe] at hp
          exact Or.inr ⟨hpe, hp⟩
      refine ⟨grouped_insert h.grouped rfl (by simp) rfl, ?_, ?_, ?_, ?_, ?_, ?_, ?_, ?_, ?_, ?_, ?_, ?_⟩ <;> simp only [Grammar.insertGroup]
      · intro k x hk hx
        rcases get_append.1 hk with h1 | h1
        · exact List.mem_append_left _ (h.vec k x h1 hx)
        · exact List.mem_append_right _ (List.mem_singleton.2 h1.1)
      · intro x hx
        rcases mem_snoc.1 hx with h1 | rfl
        · exact h.wf x h1
        · exact hf.1
      · intro p j hp
        rw [List.length_append, List.length_singleton]
        rcases hget p j hp with h1 | h1
        · omega
        · have := h.rLt p j h1.2
          omega
      · intro a ks ha k hk
        rw [List.length_append]
        have := h.lLt a ks ha k hk
        omega
      · intro p j a ks hp ha hj
        rcases hget p j hp with h1 | h1
        · have := h.lLt a ks ha j hj
          omega
        · exact h.lrDis p j a ks h1.2 ha hj
      · intro p hp e' he' hre
        rw [get_put] at hp
        by_cases hpe : p = e.2.centerPair
        · rw [if_pos hpe] at hp
          cases hp
        · rw [if_neg hpe] at hp
          rcases mem_snoc.1 he' with h1 | rfl
          · exact h.rNone p hp e' h1 hre
          · exact fun e => hpe e.symm
      · intro ht p j hp
        rcases hget p j hp with ⟨rfl, rfl⟩ | ⟨hne, h1⟩
        · refine ⟨e.2, get_append.2 (Or.inr ⟨rfl, rfl⟩), (hf.2.2.1 he).1, hf.2.1, (hf.2.2.1 he).2, ⟨e, mem_snoc.2 (Or.inr rfl), he, rfl⟩, fun l r => ?_⟩
          constructor
          · exact fun p => ⟨e, mem_snoc.2 (Or.inr rfl), he, rfl, p⟩
          · rintro ⟨e', he', k1, k2, k3⟩
            rcases mem_snoc.1 he' with h1 | rfl
            · exact absurd k2 (h.rNone _ hj e' h1 k1)
            · exact k3
        · obtain ⟨x, a1, a2, a3, a4, ⟨e', a5, a6⟩, a7⟩ := h.rSome ht p j h1
          refine ⟨x, get_append.2 (Or.inl a1), a2, a3, a4, ⟨e', mem_snoc.2 (Or.inl a5), a6⟩, fun l r => (a7 l r).trans ?_⟩
          constructor
          · rintro ⟨y, hy, k⟩
            exact ⟨y, mem_snoc.2 (Or.inl hy), k⟩
          · rintro ⟨y, hy, k1, k2, k3⟩
            rcases mem_snoc.1 hy with h3 | rfl
            · exact ⟨y, h3, k1, k2, k3⟩
            · exact absurd k2.symm hne
      · intro ht a ks ha k hk
        obtain ⟨x, a1, a2, a3, a4, a5, e', a6, a7⟩ := h.lSome ht a ks ha k hk
        exact ⟨x, get_append.2 (Or.inl a1), a2, a3, a4, a5, e', mem_snoc.2 (Or.inl a6), a7⟩
      · intro ht e' he' hl l r hp
        rcases mem_snoc.1 he' with h1 | rfl
        · obtain ⟨ks, a1, k, a2, x, a3, a4⟩ := h.lAll ht e' h1 hl l r hp
          exact ⟨ks, a1, k, a2, x, get_append.2 (Or.inl a3), a4⟩
        · rw [he] at hl; cases hl
      · intro h1 h2 hn a ks ha k hk j hj hkj x y hx hy
        have hx' := (get_append.1 hx).resolve_right fun e => by have := h.lLt a ks ha k hk; omega
        have hy' := (get_append.1 hy).resolve_right fun e => by have := h.lLt a ks ha j hj; omega
        exact h.lOne h1 h2 hn a ks ha k hk j hj hkj x y hx' hy'
      · intro k x hk hx
        rcases get_append.1 hk with h1 | ⟨rfl, rfl⟩
        · rcases h.cover k x h1 hx with ⟨h2, p, h3⟩ | h2 | ⟨e', h2, h3⟩
          · refine Or.inl ⟨h2, p, ?_⟩
            rw [get_put, if_neg]
            · exact h3
            · rintro rfl
              rw [hj] at h3
              cases h3
          · exact Or.inr (Or.inl h2)
          · exact Or.inr (Or.inr ⟨e', mem_snoc.2 (Or.inl h2), h3⟩)
        · exact Or.inl ⟨hres, e.2.centerPair, by rw [get_put, if_pos rfl]⟩
      · intro e' he' hs'
        rcases mem_snoc.1 he' with h1 | rfl
        · obtain ⟨k, a1, a2, a3⟩ := h.statics e' h1 hs'
          refine ⟨k, get_append.2 (Or.inl a1), fun ht p hp => ?_, a3⟩
          rcases hget p k hp with h2 | h2
          · have := get_lt a1
            omega
          · exact a2 ht p h2.2
        · rcases hs' with h1 | h1 | h1
          · rw [he] at h1; cases h1
          · rw [hres] at h1; cases h1.2
          · rw [he] at h1; cases h1.1
    · exact inv_static h hf (Or.inr ⟨he, by simpa using hres⟩) _ _ (Or.inr (Or.inr ⟨he, rfl⟩)) fun m hm => hm
  | some j =>
    dsimp only
    have hout : ∀ m, m ∈ g.out → m ∈ (if o.reportRight = true then
        match g.heap[j]? with
        | some x => g.out ++ [Message.rightConflict x.name e.2.name]
        | none => g.out
      else g.out) := by
      intro m hm
      split
      · split
        · exact List.mem_append_left _ hm
        · exact hm
      · exact hm
    generalize (if o.reportRight = true then
        match g.heap[j]? with
        | some x => g.out ++ [Message.rightConflict x.name e.2.name]
        | none => g.out
      else g.out) = out at hout
    by_cases hres : o.resolveRight = true
    · rw [if_pos hres]
      obtain ⟨x, a1, a2, a3, a4, a5, a7⟩ := h.rSome hres _ j hj
      have hxw := h.wf x (List.mem_of_getElem? a1)
      have hlen : (g.heap.modify j fun x => Rule.join L x e.2).length = g.heap.length := List.length_modify ..
      have old : ∀ {k : Nat} {y : Rule L}, k ≠ j → g.heap[k]? = some y →
          ((g.heap.modify j fun x => Rule.join L x e.2) ++ [{ e.2 with isEmpty := true }])[k]? = some y := by
        intro k y hk hy
        exact get_append.2 (Or.inl (get_modify.2 ⟨y, hy, by rw [if_neg (fun e => hk e.symm)]⟩))
      have new : ((g.heap.modify j fun x => Rule.join L x e.2) ++ [{ e.2 with isEmpty := true }])[j]? = some (x.join L e.2) :=
        get_append.2 (Or.inl (get_modify.2 ⟨x, a1, by rw [if_pos rfl]⟩))
      have back : ∀ {k : Nat} {y : Rule L}, ((g.heap.modify j fun x => Rule.join L x e.2) ++ [{ e.2 with isEmpty := true }])[k]? = some y →
          (k ≠ j ∧ g.heap[k]? = some y) ∨ (k = j ∧ y = x.join L e.2) ∨ (k = g.heap.length ∧ y = { e.2 with isEmpty := true }) := by
        intro k y hy
        rcases get_append.1 hy with h1 | h1
        · obtain ⟨z, hz, rfl⟩ := get_modify.1 h1
          by_cases hjk : j = k
          · subst hjk
            rw [a1] at hz
            cases hz
            rw [if_pos rfl]
            exact Or.inr (Or.inl ⟨rfl, rfl⟩)
          · rw [if_neg hjk]
            exact Or.inl ⟨fun e => hjk e.symm, hz⟩
        · exact Or.inr (Or.inr ⟨by rw [h1.1, hlen], h1.2.symm⟩)
      refine ⟨grouped_insert h.grouped rfl (by simp) rfl, ?_, ?_, ?_, ?_, ?_, ?_, ?_, ?_, ?_, ?_, ?_, ?_⟩ <;> simp only [Grammar.insertGroup]
      · intro k y hk hy
        rcases back hk with h1 | ⟨rfl, rfl⟩ | ⟨_, rfl⟩
        · exact h.vec k y h1.2 hy
        · exact h.vec k x a1 a3
        · cases hy
      · intro y hy
        rcases mem_snoc.1 hy with h1 | rfl
        · obtain ⟨k, hk, rfl⟩ := List.mem_iff_getElem.1 h1
          rcases back (get_append.2 (Or.inl (List.getElem?_eq_getElem hk))) with h2 | h2 | h2
          · exact h.wf _ (List.mem_of_getElem? h2.2)
          · rw [h2.2]
            exact (hxw.join R hf.1).1
          · rw [h2.2]
            exact hf.1
        · exact hf.1
      · intro p i hp
        rw [List.length_append, hlen]
        have := h.rLt p i hp
        omega
      · intro a ks ha k hk
        rw [List.length_append, hlen]
        have := h.lLt a ks ha k hk
        omega
      · exact h.lrDis
      · intro p hp e' he' hre
        rcases mem_snoc.1 he' with h1 | rfl
        · exact h.rNone p hp e' h1 hre
        · rintro rfl
          rw [hj] at hp
          cases hp
      · intro ht p i hp
        by_cases hij : i = j
        · subst hij
          obtain ⟨x', b1, b2, b3, b4, b5, b7⟩ := h.rSome hres p _ hp
          rw [a1] at b1
          cases b1
          have : p = e.2.centerPair := one_inj ((a4 _).1 ((b4 _).2 rfl))
          subst this
          refine ⟨_, new, a2, a3, fun m => a4 m, ⟨e, mem_snoc.2 (Or.inr rfl), he, rfl⟩, fun l r => ?_⟩
          rw [(hxw.join R hf.1).2, a7]
          constructor
          · rintro (⟨e', k1, k2⟩ | k)
            · exact ⟨e', mem_snoc.2 (Or.inl k1), k2⟩
            · exact ⟨e, mem_snoc.2 (Or.inr rfl), he, rfl, k⟩
          · rintro ⟨e', k1, k2, k3, k4⟩
            rcases mem_snoc.1 k1 with k1 | rfl
            · exact Or.inl ⟨e', k1, k2, k3, k4⟩
            · exact Or.inr k4
        · obtain ⟨y, b1, b2, b3, b4, ⟨e', b5, b6⟩, b7⟩ := h.rSome ht p i hp
          refine ⟨y, old hij b1, b2, b3, b4, ⟨e', mem_snoc.2 (Or.inl b5), b6⟩, fun l r => (b7 l r).trans ?_⟩
          constructor
          · rintro ⟨y, hy, k⟩
            exact ⟨y, mem_snoc.2 (Or.inl hy), k⟩
          · rintro ⟨y, hy, k1, k2, k3⟩
            rcases mem_snoc.1 hy with h3 | rfl
            · exact ⟨y, h3, k1, k2, k3⟩
            · rw [← k2, hj] at hp
              exact absurd (Option.some.inj hp).symm hij
      · intro ht a ks ha k hk
        obtain ⟨y, b1, b2, b3, b4, b5, e', b6, b7⟩ := h.lSome ht a ks ha k hk
        refine ⟨y, old (fun e => ?_) b1, b2, b3, b4, b5, e', mem_snoc.2 (Or.inl b6), b7⟩
        exact h.lrDis _ j a ks hj ha (e ▸ hk)
      · intro ht e' he' hl l r hp
        rcases mem_snoc.1 he' with h1 | rfl
        · obtain ⟨ks, b1, k, b2, y, b3, b4⟩ := h.lAll ht e' h1 hl l r hp
          exact ⟨ks, b1, k, b2, y, old (fun e => h.lrDis _ j _ ks hj b1 (e ▸ b2)) b3, b4⟩
        · rw [he] at hl; cases hl
      · intro h1 h2 hn a ks ha k hk i hi hki y z hy hz
        have hy' : g.heap[k]? = some y := by
          rcases back hy with h3 | h3 | h3
          · exact h3.2
          · exact absurd (h3.1 ▸ hk) (h.lrDis _ j a ks hj ha)
          · have := h.lLt a ks ha k hk
            omega
        have hz' : g.heap[i]? = some z := by
          rcases back hz with h3 | h3 | h3
          · exact h3.2
          · exact absurd (h3.1 ▸ hi) (h.lrDis _ j a ks hj ha)
          · have := h.lLt a ks ha i hi
            omega
        exact h.lOne h1 h2 (fun hm => hn (hout _ hm)) a ks ha k hk i hi hki y z hy' hz'
      · intro k y hk hy
        rcases back hk with h1 | ⟨rfl, rfl⟩ | ⟨_, rfl⟩
        · rcases h.cover k y h1.2 hy with h2 | h2 | ⟨e', h2, h3⟩
          · exact Or.inl h2
          · exact Or.inr (Or.inl h2)
          · exact Or.inr (Or.inr ⟨e', mem_snoc.2 (Or.inl h2), h3⟩)
        · exact Or.inl ⟨hres, _, hj⟩
        · cases hy
      · intro e' he' hs'
        rcases mem_snoc.1 he' with h1 | rfl
        · obtain ⟨k, b1, b2, b3⟩ := h.statics e' h1 hs'
          exact ⟨k, old (fun e => b2 hres _ (e ▸ hj)) b1, b2, b3⟩
        · rcases hs' with h1 | h1 | h1
          · rw [he] at h1; cases h1
          · rw [hres] at h1; cases h1.2
          · rw [he] at h1; cases h1.1
    · rw [if_neg hres]
      exact inv_static h hf (Or.inr ⟨he, by simpa using hres⟩) _ _ (Or.inr (Or.inl ⟨he, rfl, by rw [hj]; exact Option.some_ne_none _⟩)) hout

theorem inv_left (R : L.Right) (hb : L.declared boundarySym boundarySym) {o : Options} {g : Grammar L} {E : List (How × Rule L)} (h : Inv o g E)
    {e : How × Rule L} (hf : Fresh e) (he : e.1 = .left) : Inv o (g.addLeft o e.2) (E ++ [e]) := by
  unfold Grammar.addLeft
  obtain ⟨c1, c2, c3, c4, ⟨m, c5⟩, c6, c7⟩ := leftLoop_spec R hb o ((mapGet g.lefts e.2.centerPair.1).getD []) (g.heap, e.2, g.out) h.wf hf.1
  have hsame : ∀ ks, mapGet g.lefts e.2.centerPair.1 = some ks → (mapGet g.lefts e.2.centerPair.1).getD [] = ks := fun ks e => by rw [e]; rfl
  have hsub : ∀ k ∈ (mapGet g.lefts e.2.centerPair.1).getD [], ∃ ks, mapGet g.lefts e.2.centerPair.1 = some ks ∧ k ∈ ks := by
    intro k hk
    cases hl : mapGet g.lefts e.2.centerPair.1 with
    | none => rw [hl] at hk; cases hk
    | some ks => rw [hl] at hk; exact ⟨ks, rfl, hk⟩
  dsimp only
  generalize (mapGet g.lefts e.2.centerPair.1).getD [] = same at c1 c2 c3 c4 c5 c6 c7 hsame hsub ⊢
  generalize same.foldl (leftStep o) (g.heap, e.2, g.out) = s at c1 c2 c3 c4 c5 c6 c7 ⊢
  dsimp only at c1 c2 c3 c4 c5 c6 c7
  have hget : ∀ a ks, mapGet (mapPut g.lefts e.2.centerPair.1 (same ++ [g.heap.length])) a = some ks →
      (a = e.2.centerPair.1 ∧ ks = same ++ [g.heap.length]) ∨ (a ≠ e.2.centerPair.1 ∧ mapGet g.lefts a = some ks) := by
    intro a ks ha
    rw [get_put] at ha
    by_cases hae : a = e.2.centerPair.1
    · rw [if_pos hae] at ha
      exact Or.inl ⟨hae, (Option.some.inj ha).symm⟩
    · rw [if_neg hae] at ha
      exact Or.inr ⟨hae, ha⟩
  have hslt : ∀ k ∈ same, k < g.heap.length := by
    intro k hk
    obtain ⟨ks, h1, h2⟩ := hsub k hk
    exact h.lLt _ ks h1 k h2
  have up : ∀ {k : Nat} {x : Rule L}, g.heap[k]? = some x → ∃ y, (s.1 ++ [s.2.1])[k]? = some y ∧ Part x y ∧ (k ∉ same → y = x) := by
    intro k x hx
    obtain ⟨y, hy, q⟩ := c1.2 k x hx
    refine ⟨y, get_append.2 (Or.inl hy), q, fun hk => ?_⟩
    rw [c3 k hk, hx] at hy
    exact (Option.some.inj hy).symm
  have back : ∀ {k : Nat} {y : Rule L}, (s.1 ++ [s.2.1])[k]? = some y →
      (k < g.heap.length ∧ s.1[k]? = some y ∧ ∃ x, g.heap[k]? = some x ∧ Part x y ∧ (k ∉ same → y = x)) ∨ (k = g.heap.length ∧ y = s.2.1) := by
    intro k y hy
    rcases get_append.1 hy with h1 | ⟨h1, rfl⟩
    · obtain ⟨x, hx, q⟩ := c1.back h1
      refine Or.inl ⟨get_lt hx, h1, x, hx, q, fun hk => ?_⟩
      rw [c3 k hk, hx] at h1
      exact (Option.some.inj h1).symm
    · exact Or.inr ⟨by rw [h1, c1.1], rfl⟩
  have hwf' : ∀ x ∈ s.1 ++ [s.2.1], x.Wf := by
    intro x hx
    rcases mem_snoc.1 hx with h1 | rfl
    · exact c1.wf x h1
    · exact c2.1
  refine ⟨grouped_insert h.grouped rfl (by simp [c1.1]) rfl, ?_, hwf', ?_, ?_, ?_, ?_, ?_, ?_, ?_, ?_, ?_, ?_⟩ <;> simp only [Grammar.insertGroup]
  · intro k x hk hx
    rcases back hk with ⟨_, _, y, h2, h3, _⟩ | h1
    · exact List.mem_append_left _ (h.vec k y h2 (h3.2.2.1 ▸ hx))
    · exact List.mem_append_right _ (List.mem_singleton.2 h1.1)
  · intro p j hp
    rw [List.length_append, c1.1]
    have := h.rLt p j hp
    omega
  · intro a ks ha k hk
    rw [List.length_append, c1.1, List.length_singleton]
    rcases hget a ks ha with ⟨_, rfl⟩ | ⟨_, h1⟩
    · rcases mem_snoc.1 hk with h2 | h2
      · have := hslt k h2
        omega
      · omega
    · have := h.lLt a ks h1 k hk
      omega
  · intro p j a ks hp ha hj
    rcases hget a ks ha with ⟨_, rfl⟩ | ⟨_, h1⟩
    · rcases mem_snoc.1 hj with h2 | h2
      · obtain ⟨ks, h3, h4⟩ := hsub j h2
        exact h.lrDis p j _ ks hp h3 h4
      · have := h.rLt p j hp
        omega
    · exact h.lrDis p j a ks hp h1 hj
  · intro p hp e' he' hre
    rcases mem_snoc.1 he' with h1 | rfl
    · exact h.rNone p hp e' h1 hre
    · rw [he] at hre; cases hre
  · intro ht p j hp
    obtain ⟨x, a1, a2, a3, a4, ⟨e', a5, a6⟩, a7⟩ := h.rSome ht p j hp
    obtain ⟨y, b1, _, b3⟩ := up a1
    have hy : y = x := b3 fun hm => by
      obtain ⟨ks, h3, h4⟩ := hsub j hm
      exact h.lrDis p j _ ks hp h3 h4
    subst hy
    refine ⟨y, b1, a2, a3, a4, ⟨e', mem_snoc.2 (Or.inl a5), a6⟩, fun l r => (a7 l r).trans ?_⟩
    constructor
    · rintro ⟨z, hz, k⟩
      exact ⟨z, mem_snoc.2 (Or.inl hz), k⟩
    · rintro ⟨z, hz, k1, k2⟩
      rcases mem_snoc.1 hz with h3 | rfl
      · exact ⟨z, h3, k1, k2⟩
      · rw [he] at k1; cases k1
  · intro ht a ks ha k hk
    have oldCase : ∀ ks, mapGet g.lefts a = some ks → k ∈ ks → ∃ x, (s.1 ++ [s.2.1])[k]? = some x ∧ x.kind = .left ∧ x.isEmpty = false ∧
        (∀ m, x.C m ↔ m = one x.centerPair) ∧ x.centerPair.1 = a ∧
        ∃ e' ∈ E ++ [e], e'.1 = .left ∧ e'.2.centerPair = x.centerPair ∧ ∀ l r, x.P l r → e'.2.P l r := by
      intro ks ha hk
      obtain ⟨x, a1, a2, a3, a4, a5, e', a6, a7, a8, a9⟩ := h.lSome ht a ks ha k hk
      obtain ⟨y, b1, b2, _⟩ := up a1
      refine ⟨y, b1, by rw [b2.2.1, a2], by rw [b2.2.2.1, a3], fun m => ?_, by rw [b2.2.2.2.1, a5], e', mem_snoc.2 (Or.inl a6), a7, by rw [b2.2.2.2.1, a8],
        fun l r p => a9 l r (b2.2.2.2.2.2 l r p)⟩
      rw [b2.2.2.2.1, ← a4 m]
      unfold Rule.C
      rw [b2.2.2.2.2.1]
    rcases hget a ks ha with ⟨rfl, rfl⟩ | ⟨_, h1⟩
    · rcases mem_snoc.1 hk with h2 | rfl
      · obtain ⟨ks, h3, h4⟩ := hsub k h2
        exact oldCase ks h3 h4
      · refine ⟨s.2.1, get_append.2 (Or.inr ⟨c1.1.symm, rfl⟩), by rw [c2.2.1, (hf.2.2.2 he).1], by rw [c2.2.2.1, hf.2.1], fun m => ?_, by rw [c2.2.2.2.1],
          e, mem_snoc.2 (Or.inr rfl), he, by rw [c2.2.2.2.1], c2.2.2.2.2.2⟩
        rw [c2.2.2.2.1, ← (hf.2.2.2 he).2 m]
        unfold Rule.C
        rw [c2.2.2.2.2.1]
    · exact oldCase ks h1 hk
  · intro ht e' he' hl l r hp
    have fin : Covered same s l r → ∃ k ∈ same ++ [g.heap.length], ∃ x, (s.1 ++ [s.2.1])[k]? = some x ∧ x.P l r := by
      rintro (⟨k, hk, x, hx, q⟩ | q)
      · exact ⟨k, mem_snoc.2 (Or.inl hk), x, get_append.2 (Or.inl hx), q⟩
      · exact ⟨_, mem_snoc.2 (Or.inr rfl), _, get_append.2 (Or.inr ⟨c1.1.symm, rfl⟩), q⟩
    rcases mem_snoc.1 he' with h1 | rfl
    · obtain ⟨ks, a1, k, a2, x, a3, a4⟩ := h.lAll ht e' h1 hl l r hp
      by_cases hin : e'.2.centerPair.1 = e.2.centerPair.1
      · rw [hin] at a1 ⊢
        refine ⟨same ++ [g.heap.length], by rw [get_put, if_pos rfl], fin (c6 same l r (fun _ => id) (Or.inl ⟨k, by rw [hsame ks a1]; exact a2, x, a3, a4⟩))⟩
      · refine ⟨ks, by rw [get_put, if_neg hin]; exact a1, k, a2, ?_⟩
        obtain ⟨y, b1, _, b3⟩ := up a3
        have hy : y = x := b3 fun hm => by
          obtain ⟨js, h3, h4⟩ := hsub k hm
          obtain ⟨_, d1, _, _, _, d2, _⟩ := h.lSome ht _ js h3 k h4
          obtain ⟨_, d3, _, _, _, d4, _⟩ := h.lSome ht _ ks a1 k a2
          rw [d1] at d3
          cases d3
          exact hin (d4.symm.trans d2)
        subst hy
        exact ⟨y, b1, a4⟩
    · exact ⟨same ++ [g.heap.length], by rw [get_put, if_pos rfl], fin (c6 same l r (fun _ => id) (Or.inr hp))⟩
  · intro h1 h2 hn a ks ha k hk j hj hkj x y hx hy l r hi hp hq
    have hn0 : .unresolvable ∉ g.out := fun hm => hn (by rw [c5]; exact List.mem_append_left _ hm)
    have oldCase : ∀ ks, mapGet g.lefts a = some ks → k ∈ ks → j ∈ ks → False := by
      intro ks ha hk hj
      rcases back hx with ⟨_, _, x', b1, b2, _⟩ | ⟨b1, _⟩
      · rcases back hy with ⟨_, _, y', d1, d2, _⟩ | ⟨d1, _⟩
        · exact h.lOne h1 h2 hn0 a ks ha k hk j hj hkj x' y' b1 d1 l r hi (b2.2.2.2.2.2 l r hp) (d2.2.2.2.2.2 l r hq)
        · have := h.lLt a ks ha j hj
          omega
      · have := h.lLt a ks ha k hk
        omega
    rcases hget a ks ha with ⟨rfl, rfl⟩ | ⟨_, h3⟩
    · rcases mem_snoc.1 hk with hk | hk
      · rcases mem_snoc.1 hj with hj | hj
        · obtain ⟨ks, h3, h4⟩ := hsub k hk
          rw [hsame ks h3] at hj
          exact oldCase ks h3 h4 hj
        · rcases back hx with ⟨_, b1, _⟩ | ⟨b1, _⟩
          · rcases back hy with ⟨d1, _⟩ | ⟨_, rfl⟩
            · omega
            · exact c7 h1 h2 hn k hk x b1 l r hi hp hq
          · have := hslt k hk
            omega
      · rcases mem_snoc.1 hj with hj | hj
        · rcases back hy with ⟨_, b1, _⟩ | ⟨b1, _⟩
          · rcases back hx with ⟨d1, _⟩ | ⟨_, rfl⟩
            · omega
            · exact c7 h1 h2 hn j hj y b1 l r hi hq hp
          · have := hslt j hj
            omega
        · omega
    · exact oldCase ks h3 hk hj
  · intro k x hk hx
    by_cases hl : o.resolveLeft = true
    · rcases back hk with ⟨_, _, y, b1, b2, b3⟩ | ⟨b1, rfl⟩
      · rcases h.cover k y b1 (b2.2.2.1 ▸ hx) with h2 | ⟨_, a, ks, h3, h4⟩ | ⟨e', h2, h3, h4⟩
        · exact Or.inl h2
        · refine Or.inr (Or.inl ⟨hl, a, ?_⟩)
          by_cases hae : a = e.2.centerPair.1
          · subst hae
            exact ⟨_, by rw [get_put, if_pos rfl], mem_snoc.2 (Or.inl (by rw [hsame ks h3]; exact h4))⟩
          · exact ⟨ks, by rw [get_put, if_neg hae]; exact h3, h4⟩
        · by_cases hks : k ∈ same
          · exact Or.inr (Or.inl ⟨hl, _, _, by rw [get_put, if_pos rfl], mem_snoc.2 (Or.inl hks)⟩)
          · exact Or.inr (Or.inr ⟨e', mem_snoc.2 (Or.inl h2), h3, h4.trans (b3 hks).symm⟩)
      · exact Or.inr (Or.inl ⟨hl, _, _, by rw [get_put, if_pos rfl], mem_snoc.2 (Or.inr b1)⟩)
    · have hl' : o.resolveLeft = false := by simpa using hl
      rw [(c4 hl').1, (c4 hl').2] at hk
      rcases get_append.1 hk with h1 | ⟨_, rfl⟩
      · rcases h.cover k x h1 hx with h2 | h2 | ⟨e', h2, h3⟩
        · exact Or.inl h2
        · exact absurd h2.1 hl
        · exact Or.inr (Or.inr ⟨e', mem_snoc.2 (Or.inl h2), h3⟩)
      · exact Or.inr (Or.inr ⟨e, mem_snoc.2 (Or.inr rfl), Or.inr (Or.inr ⟨he, hl'⟩), rfl⟩)
  · intro e' he' hs'
    rcases mem_snoc.1 he' with h1 | rfl
    · obtain ⟨k, a1, a2, a3⟩ := h.statics e' h1 hs'
      by_cases hl : o.resolveLeft = true
      · obtain ⟨y, b1, _, b3⟩ := up a1
        have hks : k ∉ same := fun hm => by
          obtain ⟨ks, h3, h4⟩ := hsub k hm
          exact a3 hl _ ks h3 h4
        refine ⟨k, by rw [← b3 hks]; exact b1, a2, fun _ a ks ha hk => ?_⟩
        rcases hget a ks ha with ⟨_, rfl⟩ | ⟨_, h2⟩
        · rcases mem_snoc.1 hk with h3 | h3
          · exact hks h3
          · have := get_lt a1
            omega
        · exact a3 hl a ks h2 hk
      · have hl' : o.resolveLeft = false := by simpa using hl
        rw [(c4 hl').1]
        exact ⟨k, get_append.2 (Or.inl a1), a2, fun ht => absurd ht hl⟩
    · rcases hs' with h1 | h1 | h1
      · rw [he] at h1; cases h1
      · rw [he] at h1; cases h1.1
      · rw [(c4 h1.2).1, (c4 h1.2).2]
        refine ⟨g.heap.length, get_append.2 (Or.inr ⟨rfl, rfl⟩), fun _ p hp => ?_, fun ht => by rw [h1.2] at ht; cases ht⟩
        have := h.rLt p _ hp
        omega

theorem inv_elems (R : L.Right) (hb : L.declared boundarySym boundarySym) (o : Options) : ∀ (E D : List (How × Rule L)) (g : Grammar L), Inv o g D →
    (∀ e ∈ E, Fresh e) → Inv o (E.foldl (addElem o) g) (D ++ E)
  | [], D, g, h, _ => by simpa using h
  | e :: E, D, g, h, hf => by
    rw [List.foldl_cons]
    have hfe := hf e (List.mem_cons_self ..)
    have : Inv o (addElem o g e) (D ++ [e]) := by
      unfold addElem
      cases he : e.1 with
      | right => exact inv_right R h hfe he
      | left => exact inv_left R hb h hfe he
      | other => exact inv_static h hfe (Or.inl he) _ _ (Or.inl ⟨he, rfl⟩) fun m hm => hm
    have := inv_elems R hb o E (D ++ [e]) _ this fun x hx => hf x (List.mem_cons_of_mem _ hx)
    rw [List.append_assoc] at this
    exact this

end Hfst.TwolcRule
