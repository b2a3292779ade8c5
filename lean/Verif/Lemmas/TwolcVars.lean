import Verif.Spec.TwolcVars

/-!
# The iterators over values of variables: what they go through
-/
namespace Hfst.Twolc
open Hfst.Basic (Outcome)

@[simp] theorem ok_bind {α β : Type} (a : α) (f : α → Outcome β) : (Outcome.ok a).bind f = f a := rfl
@[simp] theorem throws_bind {α β : Type} (f : α → Outcome β) : (Outcome.throws : Outcome α).bind f = .throws := rfl
@[simp] theorem undefined_bind {α β : Type} (f : α → Outcome β) : (Outcome.undefined : Outcome α).bind f = .undefined := rfl

/-- All combinations of one element of each list; the first list changes fastest. -/
def combos {α : Type} : List (List α) → List (List α)
  | [] => [[]]
  | l :: ls => (combos ls).flatMap fun t => l.map (· :: t)

theorem mem_combos {α : Type} (ls : List (List α)) (c : List α) : c ∈ combos ls ↔ List.Forall₂ (fun l x => x ∈ l) ls c := by
  induction ls generalizing c with
  | nil => simp [combos]
  | cons l ls ih =>
    simp only [combos, List.mem_flatMap, List.mem_map]
    constructor
    · rintro ⟨t, ht, x, hx, rfl⟩
      exact .cons hx ((ih t).1 ht)
    · intro h
      cases h with
      | cons hx ht => exact ⟨_, (ih _).2 ht, _, hx, rfl⟩

theorem combos_nodup {α : Type} (ls : List (List α)) (h : ∀ l ∈ ls, l.Nodup) : (combos ls).Nodup := by
  induction ls with
  | nil => simp [combos]
  | cons l ls ih =>
    simp only [combos]
    rw [List.nodup_flatMap]
    refine ⟨fun t _ => (h l (by simp)).map fun a b hab => by simpa using hab, ?_⟩
    refine List.Pairwise.imp_of_mem ?_ (ih fun m hm => h m (by simp [hm]))
    intro a b _ _ hab
    simp only [Function.onFun]
    rw [List.disjoint_left]
    intro x hx hy
    simp only [List.mem_map] at hx hy
    obtain ⟨y, _, rfl⟩ := hx
    obtain ⟨z, _, hz⟩ := hy
    exact hab (by simpa using (congrArg List.tail hz).symm)

theorem length_combos {α : Type} (ls : List (List α)) : (combos ls).length = (ls.map List.length).prod := by
  induction ls with
  | nil => simp [combos]
  | cons l ls ih => simp [combos, List.length_flatMap, ih, Nat.mul_comm]

theorem combos_map {ι γ α : Type} (is : List ι) (L : ι → List γ) (f : ι → γ → α) :
    combos (is.map fun i => (L i).map (f i)) = (combos (is.map L)).map fun c => List.zipWith f is c := by
  induction is with
  | nil => simp [combos]
  | cons i is ih =>
    simp only [List.map_cons, combos, ih, List.flatMap_map, List.map_flatMap, List.map_map]
    rfl

/-- From each element of the list the iterator moves to the next one, from the last one to the end `e`. -/
def Chain {α : Type} [Iter α] (e : α) : List α → Prop
  | [] => False
  | [x] => Iter.next x = .ok e
  | x :: y :: r => Iter.next x = .ok y ∧ Iter.eq y e = false ∧ Chain e (y :: r)

/-- The same for a step that says whether it has come to the end, and then has started again from `b`. -/
def Wheel {δ : Type} (h : δ → Outcome (δ × Bool)) (b : δ) : List δ → Prop
  | [] => False
  | [x] => h x = .ok (b, false)
  | x :: y :: r => h x = .ok (y, true) ∧ Wheel h b (y :: r)

theorem wheel_inner {α β δ : Type} [Iter α] {e b : α} {g : β → Outcome (β × Bool)} {b0 : β} {mk : α → β → δ}
    {h : δ → Outcome (δ × Bool)} (he : Iter.eq e e = true)
    (hstep : ∀ x t, h (mk x t) = (Iter.next x).bind fun x' =>
      if Iter.eq x' e then (g t).bind fun r => .ok (mk b r.1, r.2) else .ok (mk x' t, true))
    (t : β) (Q : List δ)
    (hQ : (g t = .ok (b0, false) ∧ Q = []) ∨ ∃ t' Q', g t = .ok (t', true) ∧ Q = mk b t' :: Q' ∧ Wheel h (mk b b0) Q)
    (l : List α) (hl : Chain e l) : Wheel h (mk b b0) (l.map (fun x => mk x t) ++ Q) := by
  induction l with
  | nil => exact hl.elim
  | cons x l ih =>
    cases l with
    | nil =>
      simp only [Chain] at hl
      rcases hQ with ⟨h1, rfl⟩ | ⟨t', Q', h1, rfl, h2⟩
      · simp [Wheel, hstep, hl, he, h1]
      · simp only [List.map_cons, List.map_nil, List.cons_append, List.nil_append, Wheel]
        exact ⟨by simp [hstep, hl, he, h1], h2⟩
    | cons y r =>
      obtain ⟨h1, h2, h3⟩ := hl
      have := ih h3
      simp only [List.map_cons, List.cons_append, Wheel] at this ⊢
      exact ⟨by simp [hstep, h1, h2], this⟩

theorem wheel_cons {α β δ : Type} [Iter α] {e b : α} {g : β → Outcome (β × Bool)} {b0 : β} {mk : α → β → δ}
    {h : δ → Outcome (δ × Bool)} (he : Iter.eq e e = true)
    (hstep : ∀ x t, h (mk x t) = (Iter.next x).bind fun x' =>
      if Iter.eq x' e then (g t).bind fun r => .ok (mk b r.1, r.2) else .ok (mk x' t, true))
    {l : List α} (hl : Chain e l) (hb : l.head? = some b) (P : List β) (hP : Wheel g b0 P) :
    Wheel h (mk b b0) (P.flatMap fun t => l.map fun x => mk x t) := by
  induction P with
  | nil => exact hP.elim
  | cons t P ih =>
    rw [List.flatMap_cons]
    cases P with
    | nil => exact wheel_inner he hstep t _ (.inl ⟨hP, rfl⟩) l hl
    | cons y r =>
      refine wheel_inner he hstep t _ (.inr ?_) l hl
      cases l with
      | nil => cases hb
      | cons x l =>
        simp only [List.head?_cons, Option.some.injEq] at hb
        subst hb
        exact ⟨y, l.map (fun z => mk z y) ++ r.flatMap fun t => (x :: l).map fun z => mk z t, hP.1, by simp [List.flatMap_cons], ih hP.2⟩

/-- The iterator goes from `b` through `l` to the end `e`.  `some`: there is something to go through; otherwise `b` is already the end, but the
iterator stays there for one step. -/
structure Run {α : Type} [Iter α] (l : List α) (b e : α) (some : Bool) : Prop where
  chain : Chain e l
  head : l.head? = Option.some b
  ends : ∀ x ∈ l, Iter.eq x e = !some
  refl : Iter.eq e e = true
  single : some = false → l.length = 1

theorem wheel_chain {δ α : Type} [Iter α] {h : δ → Outcome (δ × Bool)} {b : δ} {e : α} {st : δ → α}
    (hn : ∀ x y f, h x = .ok (y, f) → Iter.next (st x) = .ok (if f then st y else e)) {P : List δ} (hP : Wheel h b P)
    (hne : ∀ x ∈ P.tail, Iter.eq (st x) e = false) : Chain e (P.map st) := by
  induction P with
  | nil => exact hP.elim
  | cons x P ih =>
    cases P with
    | nil => simpa [Chain] using hn _ _ _ hP
    | cons y r =>
      refine ⟨by simpa using hn _ _ _ hP.1, hne y (by simp), ih hP.2 fun z hz => hne z ?_⟩
      simp only [List.tail_cons] at hz ⊢
      exact List.mem_cons_of_mem _ hz

theorem wheel_advance {ι α : Type} [Iter α] (is : List ι) (L : ι → List α) (b e : ι → α) (s : ι → Bool)
    (h : ∀ i ∈ is, Run (L i) (b i) (e i) (s i)) :
    Wheel (fun c => advance c (is.map b) (is.map e)) (is.map b) (combos (is.map L)) := by
  induction is with
  | nil => simp [combos, Wheel, advance]
  | cons i is ih =>
    have hi := h i (by simp)
    exact wheel_cons (mk := List.cons) hi.refl (fun x t => by simp [advance]) hi.chain hi.head _ (ih fun j hj => h j (by simp [hj]))

theorem head_combos {ι α : Type} [Iter α] (is : List ι) (L : ι → List α) (b e : ι → α) (s : ι → Bool)
    (h : ∀ i ∈ is, Run (L i) (b i) (e i) (s i)) : (combos (is.map L)).head? = some (is.map b) := by
  induction is with
  | nil => simp [combos]
  | cons i is ih =>
    have hi := h i (by simp)
    have := ih fun j hj => h j (by simp [hj])
    simp only [List.map_cons, combos]
    cases hc : combos (is.map L) with
    | nil => rw [hc] at this; cases this
    | cons t r =>
      rw [hc] at this
      simp only [List.head?_cons, Option.some.injEq] at this
      have h2 := hi.head
      cases hl : L i with
      | nil => rw [hl] at h2; cases h2
      | cons x l =>
        rw [hl] at h2
        simp only [List.head?_cons, Option.some.injEq] at h2
        simp [List.flatMap_cons, h2, this]

theorem allEq_combos {ι α : Type} [Iter α] (is : List ι) (L : ι → List α) (b e : ι → α) (s : ι → Bool)
    (h : ∀ i ∈ is, Run (L i) (b i) (e i) (s i)) (c : List α) (hc : c ∈ combos (is.map L)) : allEq c (is.map e) = !(is.any s) := by
  rw [mem_combos] at hc
  induction is generalizing c with
  | nil => cases hc; rfl
  | cons i is ih =>
    cases hc with
    | cons hx ht =>
      simp only [List.map_cons, allEq, List.any_cons, (h i (by simp)).ends _ hx, ih (fun j hj => h j (by simp [hj])) _ ht]
      cases s i <;> simp

theorem prod_ones (l : List Nat) (h : ∀ n ∈ l, n = 1) : l.prod = 1 := by
  induction l with
  | nil => rfl
  | cons n l ih => rw [List.prod_cons, h n (by simp), ih fun m hm => h m (by simp [hm])]

theorem single_combos {ι α : Type} [Iter α] (is : List ι) (L : ι → List α) (b e : ι → α) (s : ι → Bool)
    (h : ∀ i ∈ is, Run (L i) (b i) (e i) (s i)) (hs : is.any s = false) : (combos (is.map L)).length = 1 := by
  rw [length_combos]
  apply prod_ones
  intro n hn
  simp only [List.map_map, List.mem_map, Function.comp] at hn
  obtain ⟨i, hi, rfl⟩ := hn
  refine (h i hi).single ?_
  rw [List.any_eq_false] at hs
  simpa using hs i hi

theorem allEq_refl {ι α : Type} [Iter α] (is : List ι) (L : ι → List α) (b e : ι → α) (s : ι → Bool)
    (h : ∀ i ∈ is, Run (L i) (b i) (e i) (s i)) : allEq (is.map e) (is.map e) = true := by
  induction is with
  | nil => rfl
  | cons i is ih => simp [allEq, (h i (by simp)).refl, ih fun j hj => h j (by simp [hj])]

theorem run_const {ι α : Type} [Iter α] (is : List ι) (L : ι → List α) (b e : ι → α) (s : ι → Bool)
    (h : ∀ i ∈ is, Run (L i) (b i) (e i) (s i)) :
    Run ((combos (is.map L)).map fun c => (⟨c, is.map b, is.map e⟩ : ConstIt α)) ⟨is.map b, is.map b, is.map e⟩
      ⟨is.map e, is.map b, is.map e⟩ (is.any s) := by
  have hends := allEq_combos is L b e s h
  refine ⟨?_, ?_, ?_, ?_, ?_⟩
  · refine wheel_chain (st := fun c => (⟨c, is.map b, is.map e⟩ : ConstIt α)) ?_ (wheel_advance is L b e s h) ?_
    · intro x y f hx
      show ConstIt.succ _ = _
      simp only [ConstIt.succ, hx, ok_bind]
      cases f <;> simp
    · intro x hx
      show allEq x (is.map e) = false
      rw [hends x (List.mem_of_mem_tail hx)]
      by_contra hc
      have : is.any s = false := by simpa using hc
      have h1 := single_combos is L b e s h this
      have h2 : (combos (is.map L)).tail.length = 0 := by simp [h1]
      rw [List.length_eq_zero_iff] at h2
      rw [h2] at hx
      cases hx
  · rw [List.head?_map, head_combos is L b e s h]; rfl
  · intro x hx
    rw [List.mem_map] at hx
    obtain ⟨c, hc, rfl⟩ := hx
    exact hends c hc
  · exact allEq_refl is L b e s h
  · intro hs
    rw [List.length_map]
    exact single_combos is L b e s h hs

theorem each_ok {τ α : Type} (f : τ → Outcome α) (g : τ → α) (l : List τ) (h : ∀ t ∈ l, f t = .ok (g t)) : each f l = .ok (l.map g) := by
  induction l with
  | nil => rfl
  | cons t l ih => simp [each, h t (by simp), ih fun u hu => h u (by simp [hu])]

theorem beginOf_ok {τ α : Type} (b e : τ → Outcome α) (b' e' : τ → α) (l : List τ) (hb : ∀ t ∈ l, b t = .ok (b' t))
    (he : ∀ t ∈ l, e t = .ok (e' t)) : beginOf b e l = .ok ⟨l.map b', l.map b', l.map e'⟩ := by
  simp [beginOf, each_ok b b' l hb, each_ok e e' l he]

theorem endOf_ok {τ α : Type} (b e : τ → Outcome α) (b' e' : τ → α) (l : List τ) (hb : ∀ t ∈ l, b t = .ok (b' t))
    (he : ∀ t ∈ l, e t = .ok (e' t)) : endOf b e l = .ok ⟨l.map e', l.map b', l.map e'⟩ := by
  simp [endOf, each_ok b b' l hb, each_ok e e' l he]

/-! ## One variable -/

theorem value_chain (v : Values) (m k : Nat) (h : k + (m + 1) = v.values.length) :
    Chain (⟨v, v.values.length⟩ : ValueIt) ((List.range' k (m + 1)).map fun p => ⟨v, p⟩) := by
  induction m generalizing k with
  | zero => simp only [List.range', List.map_cons, List.map_nil, Chain, Iter.next]; rw [if_pos (by omega)]; simp [h]
  | succ m ih =>
    have := ih (k + 1) (by omega)
    rw [List.range', List.map_cons]
    rw [List.range', List.map_cons] at this ⊢
    refine ⟨?_, ?_, this⟩
    · simp only [Iter.next]; rw [if_pos (by omega)]
    · simp only [Iter.eq, decide_eq_false_iff_not]; omega

theorem value_run (v : Values) (h : v.values ≠ []) :
    Run ((List.range v.values.length).map fun p => (⟨v, p⟩ : ValueIt)) v.first v.last true := by
  obtain ⟨n, hn⟩ : ∃ n, v.values.length = n + 1 := by
    cases hv : v.values with
    | nil => exact absurd hv h
    | cons a l => exact ⟨l.length, rfl⟩
  refine ⟨?_, ?_, ?_, by simp [Iter.eq], by simp⟩
  · have := value_chain v n 0 (by omega)
    rw [List.range_eq_range', hn]
    simpa [Values.last, hn] using this
  · rw [List.head?_map, hn, List.range_eq_range', List.range']; rfl
  · intro x hx
    simp only [List.mem_map, List.mem_range] at hx
    obtain ⟨p, hp, rfl⟩ := hx
    simp only [Iter.eq, Values.last, Bool.not_true, decide_eq_false_iff_not]
    omega

/-! ## One block -/

/-- The positions the variables of a block can have. -/
def positions (b : Block) : List (List Nat) := combos (b.map fun v => List.range v.values.length)

/-- The iterator of a block at these positions. -/
def at_ (b : Block) (c : List Nat) : ConstIt ValueIt := ⟨List.zipWith ValueIt.mk b c, b.map Values.first, b.map Values.last⟩

/-- Its beginning. -/
def atFirst (b : Block) : ConstIt ValueIt := ⟨b.map Values.first, b.map Values.first, b.map Values.last⟩

/-- Its end. -/
def atLast (b : Block) : ConstIt ValueIt := ⟨b.map Values.last, b.map Values.first, b.map Values.last⟩

/-- Each variable of the block has a value. -/
def Valued (b : Block) : Prop := ∀ v ∈ b, v.values ≠ []

theorem any_true {α : Type} (b : List α) : (b.any fun _ => true) = !b.isEmpty := by cases b <;> simp

theorem freely_run (b : Block) (h : Valued b) : Run ((positions b).map (at_ b)) (atFirst b) (atLast b) (!b.isEmpty) := by
  have := run_const b (fun v => (List.range v.values.length).map (ValueIt.mk v)) Values.first Values.last (fun _ => true)
    fun v hv => value_run v (h v hv)
  rw [combos_map, List.map_map, any_true] at this
  exact this

theorem freelyBegin_ok (b : Block) : freelyBegin b = .ok (atFirst b) := beginOf_ok _ _ _ _ _ (fun _ _ => rfl) fun _ _ => rfl
theorem freelyEnd_ok (b : Block) : freelyEnd b = .ok (atLast b) := endOf_ok _ _ _ _ _ (fun _ _ => rfl) fun _ _ => rfl

theorem mem_positions (b : Block) (c : List Nat) : c ∈ positions b ↔ List.Forall₂ (fun v p => p < v.values.length) b c := by
  rw [positions, mem_combos, List.forall₂_map_left_iff]
  simp only [List.mem_range]

theorem positions_nodup (b : Block) : (positions b).Nodup := by
  refine combos_nodup _ fun l hl => ?_
  rw [List.mem_map] at hl
  obtain ⟨v, _, rfl⟩ := hl
  exact List.nodup_range

/-! ### Matched -/

/-- Positions that are all the same. -/
def samePositions (b : Block) : List (List Nat) :=
  match b with
  | [] => [[]]
  | v :: _ => (List.range v.values.length).map fun p => b.map fun _ => p

theorem zipWith_const (b : Block) (p : Nat) : List.zipWith ValueIt.mk b (b.map fun _ => p) = b.map fun v => ⟨v, p⟩ := by
  induction b with
  | nil => rfl
  | cons v b ih => rw [List.map_cons, List.zipWith_cons_cons, ih]; rfl

theorem matched_next (b : Block) (n p : Nat) (hs : ∀ v ∈ b, v.values.length = n) (hp : p < n) :
    Iter.next (⟨at_ b (b.map fun _ => p)⟩ : MatchedIt) = .ok ⟨at_ b (b.map fun _ => p + 1)⟩ := by
  simp only [Iter.next, at_, zipWith_const]
  rw [each_ok _ (fun it : ValueIt => { it with pos := it.pos + 1 })]
  · simp
  · intro t ht
    rw [List.mem_map] at ht
    obtain ⟨v, hv, rfl⟩ := ht
    rw [if_pos (by simpa [hs v hv] using hp)]

theorem at_last (b : Block) (n : Nat) (hs : ∀ v ∈ b, v.values.length = n) : at_ b (b.map fun _ => n) = atLast b := by
  simp only [at_, zipWith_const, atLast, ConstIt.mk.injEq, and_self, and_true]
  apply List.map_congr_left
  intro v hv
  simp [Values.last, hs v hv]

theorem allEq_at (b : Block) (p q : Nat) (hne : b ≠ []) (h : p ≠ q) :
    allEq (b.map fun v => (⟨v, p⟩ : ValueIt)) (b.map fun v => (⟨v, q⟩ : ValueIt)) = false := by
  cases b with
  | nil => exact absurd rfl hne
  | cons v b => simp [allEq, Iter.eq, h]

theorem matched_chain (b : Block) (n : Nat) (hne : b ≠ []) (hs : ∀ v ∈ b, v.values.length = n) (m k : Nat) (h : k + (m + 1) = n) :
    Chain (⟨atLast b⟩ : MatchedIt) ((List.range' k (m + 1)).map fun p => ⟨at_ b (b.map fun _ => p)⟩) := by
  induction m generalizing k with
  | zero =>
    simp only [List.range', List.map_cons, List.map_nil, Chain]
    rw [matched_next b n k hs (by omega), ← at_last b n hs, ← h]
  | succ m ih =>
    have := ih (k + 1) (by omega)
    rw [List.range', List.map_cons]
    rw [List.range', List.map_cons] at this ⊢
    refine ⟨matched_next b n k hs (by omega), ?_, this⟩
    rw [← at_last b n hs]
    simp only [Iter.eq, at_, zipWith_const]
    exact allEq_at b _ _ hne (by omega)

theorem value_eq_refl (l : List ValueIt) : allEq l l = true := by
  induction l with
  | nil => rfl
  | cons a l ih => simp [allEq, Iter.eq, ih]

theorem matched_run (b : Block) (h : Valued b) (hs : ∀ v ∈ b, ∀ w ∈ b, v.values.length = w.values.length) :
    Run ((samePositions b).map fun c => (⟨at_ b c⟩ : MatchedIt)) ⟨atFirst b⟩ ⟨atLast b⟩ (!b.isEmpty) := by
  cases b with
  | nil => exact ⟨rfl, rfl, by intro x hx; simp [samePositions] at hx; subst hx; rfl, rfl, fun _ => rfl⟩
  | cons v b =>
    have hs' : ∀ w ∈ v :: b, w.values.length = v.values.length := fun w hw => hs w hw v (by simp)
    obtain ⟨n, hn⟩ : ∃ n, v.values.length = n + 1 := by
      cases hv : v.values with
      | nil => exact absurd hv (h v (by simp))
      | cons a l => exact ⟨l.length, rfl⟩
    refine ⟨?_, ?_, ?_, value_eq_refl _, by simp⟩
    · simp only [samePositions]
      rw [List.map_map, List.range_eq_range', hn]
      exact matched_chain (v :: b) (n + 1) (by simp) (by rwa [← hn]) n 0 (by omega)
    · simp only [samePositions]
      rw [List.map_map, hn, List.range_eq_range', List.range', List.map_cons, List.head?_cons]
      simp only [Function.comp, at_, zipWith_const]
      rfl
    · intro x hx
      simp only [samePositions, List.map_map, List.mem_map, List.mem_range, Function.comp] at hx
      obtain ⟨p, hp, rfl⟩ := hx
      rw [← at_last (v :: b) v.values.length hs']
      simp only [Iter.eq, at_, zipWith_const]
      exact allEq_at _ _ _ (by simp) (by omega)

theorem matchedOf_ok (b : Block) (hs : ∀ v ∈ b, ∀ w ∈ b, v.values.length = w.values.length) (c : List ValueIt) :
    matchedOf ⟨c, b.map Values.first, b.map Values.last⟩ = .ok ⟨⟨c, b.map Values.first, b.map Values.last⟩⟩ := by
  unfold matchedOf
  have : List.zipWith (fun e f : ValueIt => e.pos - f.pos) (b.map Values.last) (b.map Values.first) = b.map fun v => v.values.length := by
    clear hs
    induction b with
    | nil => rfl
    | cons v b ih => simp [ih, Values.last, Values.first]
  simp only [this]
  rw [if_pos]
  cases b with
  | nil => rfl
  | cons v b =>
    rw [List.all_eq_true]
    intro n hn
    rw [List.mem_map] at hn
    obtain ⟨w, hw, rfl⟩ := hn
    simpa using hs w hw v (by simp)

theorem matchedBegin_ok (b : Block) (hs : ∀ v ∈ b, ∀ w ∈ b, v.values.length = w.values.length) : matchedBegin b = .ok ⟨atFirst b⟩ := by
  rw [matchedBegin, freelyBegin_ok, ok_bind]; exact matchedOf_ok b hs _

theorem matchedEnd_ok (b : Block) (hs : ∀ v ∈ b, ∀ w ∈ b, v.values.length = w.values.length) : matchedEnd b = .ok ⟨atLast b⟩ := by
  rw [matchedEnd, freelyEnd_ok, ok_bind]; exact matchedOf_ok b hs _

theorem mem_samePositions (b : Block) (hs : ∀ v ∈ b, ∀ w ∈ b, v.values.length = w.values.length) (c : List Nat) :
    c ∈ samePositions b ↔ List.Forall₂ (fun v p => p < v.values.length) b c ∧ ∀ p ∈ c, ∀ q ∈ c, p = q := by
  cases b with
  | nil =>
    simp only [samePositions, List.mem_singleton]
    constructor
    · rintro rfl; exact ⟨.nil, by simp⟩
    · rintro ⟨h, _⟩; cases h; rfl
  | cons v b =>
    simp only [samePositions, List.mem_map, List.mem_range]
    constructor
    · rintro ⟨p, hp, rfl⟩
      refine ⟨?_, ?_⟩
      · rw [List.forall₂_map_right_iff, List.forall₂_same]
        intro w hw
        rw [hs w hw v (by simp)]; exact hp
      · intro x hx y hy
        rw [List.mem_map] at hx hy
        obtain ⟨_, _, rfl⟩ := hx
        obtain ⟨_, _, rfl⟩ := hy
        rfl
    · rintro ⟨h, he⟩
      cases h with
      | @cons _ p _ ps hp hps =>
        refine ⟨p, hp, ?_⟩
        have hl := hps.length_eq
        have : ps = b.map fun _ => p := by
          apply List.ext_getElem (by simp [hl])
          intro i h1 h2
          rw [List.getElem_map]
          exact he _ (by simp) p (by simp)
        rw [this]; rfl

theorem samePositions_nodup (b : Block) : (samePositions b).Nodup := by
  cases b with
  | nil => simp [samePositions]
  | cons v b =>
    refine List.Nodup.map ?_ List.nodup_range
    intro p q hpq
    simpa using congrArg List.head? hpq

/-! ### Mixed -/

/-- Positions that are all different. -/
def differentPositions (b : Block) : List (List Nat) := (positions b).filter fun c => decide c.Nodup

theorem equalIndices_eq (seen c : List Nat) : equalIndices seen c = !decide (c.Nodup ∧ ∀ i ∈ c, i ∉ seen) := by
  induction c generalizing seen with
  | nil => simp [equalIndices]
  | cons i c ih =>
    rw [equalIndices]
    split
    · next h => simp [h]
    · next h =>
      rw [ih]
      congr 1
      rw [decide_eq_decide, List.nodup_cons]
      simp only [List.mem_cons, not_or]
      constructor
      · rintro ⟨h1, h2⟩
        refine ⟨⟨fun hi => (h2 i hi).1 rfl, h1⟩, ?_⟩
        rintro j (rfl | hj)
        · exact h
        · exact (h2 j hj).2
      · rintro ⟨⟨h1, h2⟩, h3⟩
        exact ⟨h2, fun j hj => ⟨fun he => h1 (he ▸ hj), h3 j (.inr hj)⟩⟩

theorem indices_at (b : Block) (c : List Nat) (h : List.Forall₂ (fun v p => p < v.values.length) b c) :
    List.zipWith (fun c b : ValueIt => c.pos - b.pos) (List.zipWith ValueIt.mk b c) (b.map Values.first) = c := by
  induction h with
  | nil => rfl
  | cons _ _ ih => simp [ih, Values.first]

theorem toSkip_at (b : Block) (c : List Nat) (h : List.Forall₂ (fun v p => p < v.values.length) b c) :
    toSkip (at_ b c) = !decide c.Nodup := by
  rw [toSkip]
  have h1 : equalIndices [] (List.zipWith (fun c b : ValueIt => c.pos - b.pos) (at_ b c).cur (at_ b c).first) = !decide c.Nodup := by
    rw [show (at_ b c).cur = List.zipWith ValueIt.mk b c from rfl, show (at_ b c).first = b.map Values.first from rfl, indices_at b c h,
      equalIndices_eq]
    simp
  rw [h1]
  cases h with
  | nil => simp
  | @cons v p b c hp _ =>
    have : didntEnd (at_ (v :: b) (p :: c)) = true := by
      have : p ≠ v.values.length := by omega
      simp [didntEnd, at_, Iter.eq, Values.last, this]
    rw [this, Bool.true_and]

theorem toSkip_last (b : Block) : toSkip (atLast b) = false := by
  have : didntEnd (atLast b) = false := by
    simp only [didntEnd, atLast]
    induction b with
    | nil => rfl
    | cons v b ih => simp [Iter.eq]
  rw [toSkip, this, Bool.false_and]

theorem skip_chain {st : List Nat → ConstIt ValueIt} {e : ConstIt ValueIt} {p : List Nat → Bool} (he : toSkip e = false) (l : List (List Nat))
    (c : List Nat) (hl : Chain e ((c :: l).map st)) (hp : ∀ x ∈ c :: l, toSkip (st x) = !(p x)) (n : Nat) (hn : l.length + 1 < n) :
    skip n (st c) = .ok ((((c :: l).filter p).head?.map st).getD e) := by
  induction l generalizing c n with
  | nil =>
    obtain ⟨n, rfl⟩ : ∃ k, n = k + 2 := ⟨n - 2, by simp at hn; omega⟩
    have hc := hp c (by simp)
    rw [skip, hc]
    cases h : p c with
    | true => simp [h]
    | false =>
      have : (st c).succ = .ok e := hl
      simp [h, this, skip, he]
  | cons y r ih =>
    obtain ⟨n, rfl⟩ : ∃ k, n = k + 1 := ⟨n - 1, by omega⟩
    have hc := hp c (by simp)
    rw [skip, hc]
    cases h : p c with
    | true => simp [h]
    | false =>
      have h1 : (st c).succ = .ok (st y) := hl.1
      simp only [Bool.not_false, if_true, h1, ok_bind]
      rw [ih y hl.2.2 (fun x hx => hp x (List.mem_cons_of_mem _ hx)) n (by simp at hn ⊢; omega)]
      rw [List.filter_cons_of_neg (a := c) (by simp [h])]

theorem mixed_chain {st : List Nat → ConstIt ValueIt} {e : ConstIt ValueIt} {p : List Nat → Bool} (he : toSkip e = false) (l : List (List Nat))
    (hl : Chain e (l.map st)) (hp : ∀ x ∈ l, toSkip (st x) = !(p x)) (hr : ∀ x, l.length < rounds (st x))
    (hne : ∀ x ∈ l.tail, Iter.eq (st x) e = false) (hf : l.filter p ≠ []) :
    Chain (⟨e⟩ : MixedIt) ((l.filter p).map fun c => ⟨st c⟩) := by
  induction l with
  | nil => exact absurd rfl hf
  | cons c l ih =>
    have hlen : ∀ x, l.length < rounds (st x) := fun x => by have := hr x; simp at this; omega
    cases h : p c with
    | false =>
      rw [List.filter_cons_of_neg (by simp [h])] at hf ⊢
      cases l with
      | nil => exact absurd rfl hf
      | cons y r =>
        exact ih hl.2.2 (fun x hx => hp x (List.mem_cons_of_mem _ hx)) hlen (fun x hx => hne x (List.mem_of_mem_tail hx)) hf
    | true =>
      rw [List.filter_cons_of_pos (by simp [h])]
      cases l with
      | nil =>
        have : (st c).succ = .ok e := hl
        simp only [List.filter_nil, List.map_cons, List.map_nil, Chain, Iter.next]
        have h0 := hr c
        obtain ⟨k, hk⟩ : ∃ k, rounds (st c) = k + 1 := ⟨rounds (st c) - 1, by simp at h0; omega⟩
        rw [this, ok_bind, hk, skip, he]
        rfl
      | cons y r =>
        have h1 : (st c).succ = .ok (st y) := hl.1
        have h2 := skip_chain he r y hl.2.2 (fun x hx => hp x (List.mem_cons_of_mem _ hx)) (rounds (st c)) (by have := hr c; simp at this; omega)
        have hn : Iter.next (⟨st c⟩ : MixedIt) = .ok ⟨(((y :: r).filter p).head?.map st).getD e⟩ := by
          simp only [Iter.next, h1, ok_bind, h2]
        cases hg : (y :: r).filter p with
        | nil => rw [hg] at hn; exact hn
        | cons z s =>
          rw [hg] at hn
          rw [hg] at ih
          refine ⟨hn, ?_, ih hl.2.2 (fun x hx => hp x (List.mem_cons_of_mem _ hx)) hlen (fun x hx => hne x (List.mem_of_mem_tail hx)) (by simp)⟩
          have hz : z ∈ (y :: r).filter p := by rw [hg]; simp
          exact hne z (List.mem_filter.1 hz).1

theorem rounds_at (b : Block) (c : List ValueIt) :
    rounds ⟨c, b.map Values.first, b.map Values.last⟩ = (positions b).length + 1 := by
  rw [rounds, positions, length_combos]
  simp only [List.map_map, Function.comp_def, Values.last, List.length_range]

theorem mixed_run (b : Block) (h : Valued b) (hd : differentPositions b ≠ []) :
    Run ((differentPositions b).map fun c => (⟨at_ b c⟩ : MixedIt)) ⟨((differentPositions b).head?.map (at_ b)).getD (atLast b)⟩ ⟨atLast b⟩
      (!b.isEmpty) := by
  have hr := freely_run b h
  refine ⟨?_, ?_, ?_, value_eq_refl _, ?_⟩
  · refine mixed_chain (toSkip_last b) (positions b) hr.chain (fun x hx => toSkip_at b x ((mem_positions b x).1 hx))
      (fun x => by rw [at_, rounds_at]; omega) (fun x hx => ?_) hd
    rw [hr.ends _ (List.mem_map.2 ⟨x, List.mem_of_mem_tail hx, rfl⟩)]
    cases b with
    | nil => simp [positions, combos] at hx
    | cons v b => rfl
  · cases hc : differentPositions b with
    | nil => exact absurd hc hd
    | cons c l => rfl
  · intro x hx
    rw [List.mem_map] at hx
    obtain ⟨c, hc, rfl⟩ := hx
    exact hr.ends _ (List.mem_map.2 ⟨c, (List.mem_filter.1 hc).1, rfl⟩)
  · intro hs
    cases b with
    | nil => rfl
    | cons v b => cases hs

theorem mixedBegin_ok (b : Block) (h : Valued b) :
    mixedBegin b = .ok ⟨((differentPositions b).head?.map (at_ b)).getD (atLast b)⟩ := by
  have hr := freely_run b h
  rw [mixedBegin, freelyBegin_ok, ok_bind, mixedOf]
  have hh := hr.head
  have hch := hr.chain
  cases hp : positions b with
  | nil => rw [hp] at hh; cases hh
  | cons c l =>
    rw [hp] at hh hch
    have h1 : at_ b c = atFirst b := by simpa using hh
    have := skip_chain (p := fun c => decide c.Nodup) (toSkip_last b) l c hch
      (fun x hx => toSkip_at b x ((mem_positions b x).1 (hp ▸ hx))) (rounds (atFirst b)) (by rw [atFirst, rounds_at, hp]; simp)
    rw [← h1] at this ⊢
    rw [this, ok_bind, differentPositions, hp]

theorem mixedEnd_ok (b : Block) : mixedEnd b = .ok ⟨atLast b⟩ := by
  rw [mixedEnd, freelyEnd_ok, ok_bind, mixedOf, rounds, skip, toSkip_last]
  rfl

theorem mem_differentPositions (b : Block) (c : List Nat) :
    c ∈ differentPositions b ↔ List.Forall₂ (fun v p => p < v.values.length) b c ∧ c.Nodup := by
  rw [differentPositions, List.mem_filter, mem_positions, decide_eq_true_iff]

end Hfst.Twolc
