import Verif.Spec.TwolcRules
import Mathlib.Tactic.ByContra

/-!
# Lemmas about the rules of a two-level grammar: languages
-/
namespace Hfst.TwolcRule
open Hfst.Basic (Sym mapGet mapPut setInsert)

/-- A string with marks around its middle part. -/
def marked (l m r : List Letter) : List Letter := l ++ .diamond :: (m ++ .diamond :: r)

variable {L : Lib}

theorem Pairs.no_diamond {w : List Letter} (h : Pairs L w) : .diamond ∉ w := fun hm => h _ hm

theorem pairs_append {u v : List Letter} : Pairs L (u ++ v) ↔ Pairs L u ∧ Pairs L v := by
  unfold Pairs
  constructor
  · intro h
    exact ⟨fun x hx => h x (List.mem_append_left _ hx), fun x hx => h x (List.mem_append_right _ hx)⟩
  · intro h x hx
    rcases List.mem_append.1 hx with h1 | h1
    · exact h.1 x h1
    · exact h.2 x h1

theorem pairs_nil : Pairs L [] := fun x h => by cases h

theorem split_diamond : ∀ {l l' x y : List Letter}, .diamond ∉ l → .diamond ∉ l' → l ++ .diamond :: x = l' ++ .diamond :: y → l = l' ∧ x = y
  | [], [], _, _, _, _, h => by simpa using h
  | [], a :: l', _, _, _, h', h => by
    simp only [List.nil_append, List.cons_append, List.cons.injEq] at h
    exact absurd (h.1 ▸ List.mem_cons_self ..) h'
  | a :: l, [], _, _, h', _, h => by
    simp only [List.nil_append, List.cons_append, List.cons.injEq] at h
    exact absurd (h.1 ▸ List.mem_cons_self ..) h'
  | a :: l, b :: l', x, y, h1, h2, h => by
    simp only [List.cons_append, List.cons.injEq] at h
    have := split_diamond (l := l) (l' := l') (fun hm => h1 (List.mem_cons_of_mem _ hm)) (fun hm => h2 (List.mem_cons_of_mem _ hm)) h.2
    exact ⟨by rw [h.1, this.1], this.2⟩

theorem marked_inj {l m r l' m' r' : List Letter} (hl : .diamond ∉ l) (hm : .diamond ∉ m) (hl' : .diamond ∉ l') (hm' : .diamond ∉ m')
    (h : marked l m r = marked l' m' r') : l = l' ∧ m = m' ∧ r = r' := by
  unfold marked at h
  obtain ⟨h1, h2⟩ := split_diamond hl hl' h
  obtain ⟨h3, h4⟩ := split_diamond hm hm' h2
  exact ⟨h1, h3, h4⟩

theorem filter_pairs {w : List Letter} (h : .diamond ∉ w) : w.filter (· ≠ .diamond) = w := by
  rw [List.filter_eq_self]
  intro a ha
  simp only [ne_eq, decide_not, Bool.not_eq_eq_eq_not, Bool.not_true, decide_eq_false_iff_not]
  rintro rfl
  exact h ha

theorem filter_marked {l m r : List Letter} (hl : .diamond ∉ l) (hm : .diamond ∉ m) (hr : .diamond ∉ r) :
    (marked l m r).filter (· ≠ .diamond) = l ++ m ++ r := by
  unfold marked
  rw [List.filter_append, filter_pairs hl, List.filter_cons_of_neg (by simp), List.filter_append, filter_pairs hm,
    List.filter_cons_of_neg (by simp), filter_pairs hr, List.append_assoc]

theorem star_any (R : L.Right) (w : List Letter) : L.lang (L.star L.any) w ↔ Pairs L w := by
  rw [R.star]
  constructor
  · rintro ⟨l, hl, rfl⟩ x hx
    obtain ⟨v, hv, hxv⟩ := List.mem_flatten.1 hx
    obtain ⟨y, hy, rfl⟩ := (R.any v).1 (hl v hv)
    rw [List.mem_singleton] at hxv
    exact hxv ▸ hy
  · intro h
    refine ⟨w.map fun x => [x], ?_, ?_⟩
    · intro v hv
      obtain ⟨x, hx, rfl⟩ := List.mem_map.1 hv
      exact (R.any _).2 ⟨x, h x hx, rfl⟩
    · clear h
      induction w with
      | nil => rfl
      | cons a w ih => rw [List.map_cons, List.flatten_cons, ← ih]; rfl

theorem star_star_any (R : L.Right) (w : List Letter) : L.lang (L.star (L.star L.any)) w ↔ Pairs L w := by
  rw [R.star]
  constructor
  · rintro ⟨l, hl, rfl⟩ x hx
    obtain ⟨v, hv, hxv⟩ := List.mem_flatten.1 hx
    exact (star_any R v).1 (hl v hv) x hxv
  · intro h
    exact ⟨[w], fun v hv => by rw [List.mem_singleton.1 hv]; exact (star_any R w).2 h, by simp⟩

/-- The language of a context that is at the places `P`. -/
def Ctx (t : L.T) (P : List Letter → List Letter → Prop) : Prop :=
  ∀ u, L.lang t u ↔ ∃ l m r, Pairs L l ∧ Pairs L m ∧ Pairs L r ∧ u = marked l m r ∧ P l r

/-- The language of a center. -/
def Cen (t : L.T) (C : List Letter → Prop) : Prop :=
  (∀ m, C m → Pairs L m) ∧ ∀ u, L.lang t u ↔ ∃ l m r, Pairs L l ∧ C m ∧ Pairs L r ∧ u = marked l m r

theorem Ctx.at {t : L.T} {P} (h : Ctx t P) {l m r : List Letter} (hl : Pairs L l) (hm : Pairs L m) (hr : Pairs L r) :
    L.lang t (marked l m r) ↔ P l r := by
  rw [h]
  constructor
  · rintro ⟨l', m', r', a, b, c, e, p⟩
    obtain ⟨rfl, rfl, rfl⟩ := marked_inj hl.no_diamond hm.no_diamond a.no_diamond b.no_diamond e
    exact p
  · exact fun p => ⟨l, m, r, hl, hm, hr, rfl, p⟩

theorem Cen.at {t : L.T} {C} (h : Cen t C) {l m r : List Letter} (hl : Pairs L l) (hm : Pairs L m) (hr : Pairs L r) :
    L.lang t (marked l m r) ↔ C m := by
  rw [h.2]
  constructor
  · rintro ⟨l', m', r', a, b, c, e⟩
    obtain ⟨rfl, rfl, rfl⟩ := marked_inj hl.no_diamond hm.no_diamond a.no_diamond (h.1 _ b).no_diamond e
    exact b
  · exact fun p => ⟨l, m, r, hl, p, hr, rfl⟩

theorem ctx_nothing (R : L.Right) : Ctx L.nothing (fun _ _ => False) := fun u =>
  ⟨fun h => absurd h (R.nothing u), fun ⟨_, _, _, _, _, _, _, h⟩ => h.elim⟩

theorem ctx_disjunct (R : L.Right) {a b : L.T} {P Q} (ha : Ctx a P) (hb : Ctx b Q) : Ctx (L.disjunct a b) (fun l r => P l r ∨ Q l r) := by
  intro u
  rw [R.disjunct, ha, hb]
  constructor
  · rintro (⟨l, m, r, x, y, z, e, p⟩ | ⟨l, m, r, x, y, z, e, p⟩)
    · exact ⟨l, m, r, x, y, z, e, Or.inl p⟩
    · exact ⟨l, m, r, x, y, z, e, Or.inr p⟩
  · rintro ⟨l, m, r, x, y, z, e, p | p⟩
    · exact Or.inl ⟨l, m, r, x, y, z, e, p⟩
    · exact Or.inr ⟨l, m, r, x, y, z, e, p⟩

theorem ctx_subtract (R : L.Right) {a b : L.T} {P Q} (ha : Ctx a P) (hb : Ctx b Q) : Ctx (L.subtract a b) (fun l r => P l r ∧ ¬ Q l r) := by
  intro u
  rw [R.subtract]
  constructor
  · rintro ⟨h1, h2⟩
    obtain ⟨l, m, r, x, y, z, rfl, p⟩ := (ha u).1 h1
    exact ⟨l, m, r, x, y, z, rfl, p, fun q => h2 ((hb.at x y z).2 q)⟩
  · rintro ⟨l, m, r, x, y, z, rfl, p, q⟩
    exact ⟨(ha.at x y z).2 p, fun h => q ((hb.at x y z).1 h)⟩

theorem ctx_congr {a : L.T} {P Q} (h : Ctx a P) (e : ∀ l r, Pairs L l → Pairs L r → (P l r ↔ Q l r)) : Ctx a Q := by
  intro u
  rw [h]
  constructor
  · rintro ⟨l, m, r, x, y, z, eq, p⟩
    exact ⟨l, m, r, x, y, z, eq, (e l r x z).1 p⟩
  · rintro ⟨l, m, r, x, y, z, eq, p⟩
    exact ⟨l, m, r, x, y, z, eq, (e l r x z).2 p⟩

theorem ctx_getContext (R : L.Right) {a b : L.T} (ha : ∀ w, L.lang a w → Pairs L w) (hb : ∀ w, L.lang b w → Pairs L w) :
    Ctx (getContext L a b) (InContext [(a, b)]) := by
  intro u
  unfold getContext
  simp only [R.concatenate, star_any R, star_star_any R, R.diamond]
  constructor
  · rintro ⟨_, r₂, ⟨_, r₁, ⟨_, _, ⟨_, m, ⟨_, _, ⟨l₁, l₂, h1, h2, rfl⟩, rfl, rfl⟩, h3, rfl⟩, rfl, rfl⟩, h4, rfl⟩, h5, rfl⟩
    refine ⟨l₁ ++ l₂, m, r₁ ++ r₂, pairs_append.2 ⟨h1, ha _ h2⟩, h3, pairs_append.2 ⟨hb _ h4, h5⟩, by simp [marked], (a, b), List.mem_singleton.2 rfl,
      ⟨l₁, l₂, rfl, h2⟩, r₁, r₂, rfl, h4⟩
  · rintro ⟨l, m, r, hl, hm, hr, rfl, c, hc, ⟨l₁, l₂, rfl, h2⟩, r₁, r₂, rfl, h4⟩
    rw [List.mem_singleton] at hc
    subst hc
    rw [pairs_append] at hl hr
    exact ⟨l₁ ++ l₂ ++ [.diamond] ++ m ++ [.diamond] ++ r₁, r₂, ⟨l₁ ++ l₂ ++ [.diamond] ++ m ++ [.diamond], r₁,
      ⟨l₁ ++ l₂ ++ [.diamond] ++ m, [.diamond], ⟨l₁ ++ l₂ ++ [.diamond], m, ⟨l₁ ++ l₂, [.diamond], ⟨l₁, l₂, hl.1, h2, rfl⟩, rfl, rfl⟩, hm, rfl⟩, rfl, rfl⟩,
      h4, rfl⟩, hr.2, by simp [marked]⟩

theorem ctx_joinContexts (R : L.Right) (cs : List (L.T × L.T)) (h : ∀ c ∈ cs, (∀ w, L.lang c.1 w → Pairs L w) ∧ ∀ w, L.lang c.2 w → Pairs L w) :
    Ctx (joinContexts L cs) (InContext cs) := by
  have key : ∀ (cs : List (L.T × L.T)) (t : L.T) (P), Ctx t P → (∀ c ∈ cs, (∀ w, L.lang c.1 w → Pairs L w) ∧ ∀ w, L.lang c.2 w → Pairs L w) →
      Ctx (cs.foldl (fun t c => L.disjunct t (getContext L c.1 c.2)) t) (fun l r => P l r ∨ InContext cs l r) := by
    intro cs
    induction cs with
    | nil =>
      intro t P ht _
      refine ctx_congr ht fun l r _ _ => ⟨Or.inl, ?_⟩
      rintro (h | ⟨c, hc, _⟩)
      · exact h
      · cases hc
    | cons c cs ih =>
      intro t P ht hc
      refine ctx_congr (ih _ _ (ctx_disjunct R ht (ctx_getContext R (hc c (List.mem_cons_self ..)).1 (hc c (List.mem_cons_self ..)).2))
        fun x hx => hc x (List.mem_cons_of_mem _ hx)) fun l r _ _ => ?_
      constructor
      · rintro ((h | ⟨x, hx, h⟩) | ⟨x, hx, h⟩)
        · exact Or.inl h
        · exact Or.inr ⟨x, by rw [List.mem_singleton.1 hx]; exact List.mem_cons_self .., h⟩
        · exact Or.inr ⟨x, List.mem_cons_of_mem _ hx, h⟩
      · rintro (h | ⟨x, hx, h⟩)
        · exact Or.inl (Or.inl h)
        · rcases List.mem_cons.1 hx with rfl | hx
          · exact Or.inl (Or.inr ⟨_, List.mem_singleton.2 rfl, h⟩)
          · exact Or.inr ⟨x, hx, h⟩
  exact ctx_congr (key cs _ _ (ctx_nothing R) h) fun l r _ _ => ⟨fun h => h.elim False.elim id, Or.inr⟩

theorem cen_getCenter (R : L.Right) {c : L.T} {C} (hc : ∀ m, L.lang c m ↔ C m) (hp : ∀ m, C m → Pairs L m) : Cen (getCenter L c) C := by
  refine ⟨hp, fun u => ?_⟩
  unfold getCenter
  simp only [R.concatenate, star_any R, R.diamond, hc]
  constructor
  · rintro ⟨_, r, ⟨_, _, ⟨_, m, ⟨l, _, h1, rfl, rfl⟩, h2, rfl⟩, rfl, rfl⟩, h3, rfl⟩
    exact ⟨l, m, r, h1, h2, h3, by simp [marked]⟩
  · rintro ⟨l, m, r, h1, h2, h3, rfl⟩
    exact ⟨l ++ [.diamond] ++ m ++ [.diamond], r, ⟨l ++ [.diamond] ++ m, [.diamond], ⟨l ++ [.diamond], m, ⟨l, [.diamond], h1, rfl, rfl⟩, h2, rfl⟩, rfl, rfl⟩,
      h3, by simp [marked]⟩

theorem pairs_one {p : Sym × Sym} (h : L.declared p.1 p.2) : Pairs L (one p) := by
  intro x hx
  rw [one, List.mem_singleton] at hx
  subst hx
  exact Or.inl h

theorem cen_pair (R : L.Right) {p : Sym × Sym} (h : L.declared p.1 p.2) : Cen (getCenterPair L p) (· = one p) :=
  cen_getCenter R (fun m => R.pair p.1 p.2 h m) fun m hm => by rw [hm]; exact pairs_one h

theorem sameInputs_refl : ∀ u : List Letter, SameInputs u u
  | [] => .nil
  | .diamond :: u => .diamond (sameInputs_refl u)
  | .pair _ _ :: u => .pair (sameInputs_refl u)

theorem SameInputs.append {a b c d : List Letter} (h : SameInputs a b) (k : SameInputs c d) : SameInputs (a ++ c) (b ++ d) := by
  induction h with
  | nil => exact k
  | diamond _ ih => exact .diamond ih
  | pair _ ih => exact .pair ih
  | drop _ ih => exact .drop ih

theorem sameInputs_split : ∀ {v u : List Letter}, SameInputs v u → ∀ {l' x l y}, .diamond ∉ l' → .diamond ∉ l → v = l' ++ .diamond :: x →
    u = l ++ .diamond :: y → SameInputs l' l ∧ SameInputs x y := by
  intro v u h
  induction h with
  | nil => intro l' x l y _ _ e _; cases l' <;> cases e
  | @diamond v u h ih =>
    intro l' x l y h1 h2 e1 e2
    have a := split_diamond (l := []) (by simp) h1 e1
    have b := split_diamond (l := []) (by simp) h2 e2
    rw [← a.1, ← b.1, ← a.2, ← b.2]
    exact ⟨.nil, h⟩
  | @pair i o o' v u h ih =>
    intro l' x l y h1 h2 e1 e2
    cases l' with
    | nil => cases e1
    | cons c l' =>
      cases l with
      | nil => cases e2
      | cons d l =>
        simp only [List.cons_append, List.cons.injEq] at e1 e2
        obtain ⟨p, q⟩ := ih (fun h => h1 (List.mem_cons_of_mem _ h)) (fun h => h2 (List.mem_cons_of_mem _ h)) e1.2 e2.2
        rw [← e1.1, ← e2.1]
        exact ⟨.pair p, q⟩
  | @drop o v u h ih =>
    intro l' x l y h1 h2 e1 e2
    cases l' with
    | nil => cases e1
    | cons c l' =>
      simp only [List.cons_append, List.cons.injEq] at e1
      obtain ⟨p, q⟩ := ih (fun h => h1 (List.mem_cons_of_mem _ h)) h2 e1.2 e2
      rw [← e1.1]
      exact ⟨.drop p, q⟩

theorem sameInputs_marked {l' m' r' l m r : List Letter} (h : SameInputs (marked l' m' r') (marked l m r)) (a : .diamond ∉ l') (b : .diamond ∉ m')
    (c : .diamond ∉ l) (d : .diamond ∉ m) : SameInputs m' m := by
  obtain ⟨_, h2⟩ := sameInputs_split h a c rfl rfl
  exact (sameInputs_split h2 b d rfl rfl).1

/-- What a rule with the center `C` and the places `P` says about a string. -/
def Says (k : Kind) (C : List Letter → Prop) (P : List Letter → List Letter → Prop) (w : List Letter) : Prop :=
  ∀ l m r, w = l ++ m ++ r →
    match k with
    | .right => C m → P l r
    | .left => P l r → (∃ v, C v ∧ SameInputs v m) → C m
    | .notLeft => C m → ¬ P l r

theorem compile_lang (R : L.Right) {x : Rule L} {C P} (hC : Cen x.center C) (hP : Ctx x.context P) {w : List Letter} (hw : Pairs L w) :
    L.lang (x.compile L) w ↔ Says x.kind C P w := by
  obtain ⟨kind, emp, name, cp, center, context⟩ := x
  have out : ∀ {l m r}, w = l ++ m ++ r → Pairs L l ∧ Pairs L m ∧ Pairs L r := by
    intro l m r e
    rw [e, pairs_append, pairs_append] at hw
    exact ⟨hw.1.1, hw.1.2, hw.2⟩
  have mem : ∀ {l m r}, Pairs L l → Pairs L m → Pairs L r → ∀ x ∈ marked l m r, Valid L x ∨ x = .diamond := by
    intro l m r hl hm hr x hx
    simp only [marked, List.mem_append, List.mem_cons] at hx
    rcases hx with h | h | h | h | h
    · exact Or.inl (hl x h)
    · exact Or.inr h
    · exact Or.inl (hm x h)
    · exact Or.inr h
    · exact Or.inl (hr x h)
  dsimp only at hC hP
  cases kind
  · unfold Rule.compile Says
    dsimp only
    rw [R.subtract, star_any R, R.dropDiamonds]
    constructor
    · rintro ⟨_, h⟩ l m r e hc
      obtain ⟨h1, h2, h3⟩ := out e
      by_contra hn
      exact h ⟨marked l m r, (R.subtract _ _ _).2 ⟨(hC.at h1 h2 h3).2 hc, fun k => hn ((hP.at h1 h2 h3).1 k)⟩,
        by rw [filter_marked h1.no_diamond h2.no_diamond h3.no_diamond, e]⟩
    · intro h
      refine ⟨hw, ?_⟩
      rintro ⟨v, hv, e⟩
      rw [R.subtract] at hv
      obtain ⟨l, m, r, a, b, c, rfl⟩ := (hC.2 v).1 hv.1
      rw [filter_marked a.no_diamond (hC.1 _ b).no_diamond c.no_diamond] at e
      exact hv.2 ((hP.at a (hC.1 _ b) c).2 (h l m r e b))
  · unfold Rule.compile Says
    dsimp only
    rw [R.subtract, star_any R, R.dropDiamonds]
    constructor
    · rintro ⟨_, h⟩ l m r e hp ⟨v, hv, hs⟩
      obtain ⟨h1, h2, h3⟩ := out e
      by_contra hn
      refine h ⟨marked l m r, (R.subtract _ _ _).2 ⟨(R.intersect _ _ _).2 ⟨(hP.at h1 h2 h3).2 hp, (R.abstracted _ _ (mem h1 h2 h3)).2
        ⟨marked l v r, (hC.at h1 (hC.1 _ hv) h3).2 hv, ?_⟩⟩, fun k => hn ((hC.at h1 h2 h3).1 k)⟩,
        by rw [filter_marked h1.no_diamond h2.no_diamond h3.no_diamond, e]⟩
      exact (sameInputs_refl l).append (.diamond (hs.append (.diamond (sameInputs_refl r))))
    · intro h
      refine ⟨hw, ?_⟩
      rintro ⟨u, hu, e⟩
      rw [R.subtract, R.intersect] at hu
      obtain ⟨l, m, r, a, b, c, rfl, p⟩ := (hP u).1 hu.1.1
      rw [filter_marked a.no_diamond b.no_diamond c.no_diamond] at e
      obtain ⟨v, hv, hs⟩ := (R.abstracted _ _ (mem a b c)).1 hu.1.2
      obtain ⟨l', m', r', a', b', c', rfl⟩ := (hC.2 v).1 hv
      exact hu.2 ((hC.at a b c).2 (h l m r e p ⟨m', b', sameInputs_marked hs a'.no_diamond (hC.1 _ b').no_diamond a.no_diamond b.no_diamond⟩))
  · unfold Rule.compile Says
    dsimp only
    rw [R.subtract, star_any R, R.dropDiamonds]
    constructor
    · rintro ⟨_, h⟩ l m r e hc hp
      obtain ⟨h1, h2, h3⟩ := out e
      exact h ⟨marked l m r, (R.intersect _ _ _).2 ⟨(hC.at h1 h2 h3).2 hc, (hP.at h1 h2 h3).2 hp⟩,
        by rw [filter_marked h1.no_diamond h2.no_diamond h3.no_diamond, e]⟩
    · intro h
      refine ⟨hw, ?_⟩
      rintro ⟨v, hv, e⟩
      rw [R.intersect] at hv
      obtain ⟨l, m, r, a, b, c, rfl⟩ := (hC.2 v).1 hv.1
      rw [filter_marked a.no_diamond (hC.1 _ b).no_diamond c.no_diamond] at e
      exact h l m r e b ((hP.at a (hC.1 _ b) c).1 hv.2)

/-- The places of a rule. -/
def Rule.P (x : Rule L) (l r : List Letter) : Prop := L.lang x.context (marked l [] r)

/-- The center of a rule. -/
def Rule.C (x : Rule L) (m : List Letter) : Prop := L.lang x.center (marked [] m [])

/-- The transducers of a rule have the form that they should have. -/
def Rule.Wf (x : Rule L) : Prop := Cen x.center x.C ∧ Ctx x.context x.P

theorem Rule.wf_of {x : Rule L} {C P} (hC : Cen x.center C) (hP : Ctx x.context P) :
    x.Wf ∧ (∀ m, x.C m ↔ C m) ∧ ∀ l r, x.P l r ↔ (Pairs L l ∧ Pairs L r ∧ P l r) := by
  have h1 : ∀ m, x.C m ↔ C m := by
    intro m
    unfold Rule.C
    constructor
    · intro h
      obtain ⟨l, m', r, a, b, c, e⟩ := (hC.2 _).1 h
      have hl : l = [] := by
        cases l with
        | nil => rfl
        | cons y l =>
          simp only [marked, List.nil_append, List.cons_append, List.cons.injEq] at e
          exact absurd (e.1 ▸ List.mem_cons_self ..) a.no_diamond
      subst hl
      simp only [marked, List.nil_append, List.cons.injEq, true_and] at e
      have : m = m' := by
        have hr : (m ++ [Letter.diamond]).reverse = (m' ++ Letter.diamond :: r).reverse := by rw [e]
        simp only [List.reverse_append, List.reverse_cons, List.reverse_nil, List.nil_append, List.append_assoc] at hr
        cases hrr : r.reverse with
        | nil =>
          rw [hrr] at hr
          simp only [List.nil_append, List.singleton_append, List.cons.injEq, true_and] at hr
          simpa using hr
        | cons y l =>
          rw [hrr] at hr
          simp only [List.cons_append, List.cons.injEq] at hr
          exact absurd (by rw [← List.mem_reverse, hrr, ← hr.1]; exact List.mem_cons_self ..) c.no_diamond
      exact this ▸ b
    · intro h
      exact (hC.2 _).2 ⟨[], m, [], pairs_nil, h, pairs_nil, rfl⟩
  have h2 : ∀ l r, x.P l r ↔ (Pairs L l ∧ Pairs L r ∧ P l r) := by
    intro l r
    unfold Rule.P
    rw [hP]
    constructor
    · rintro ⟨l', m', r', a, b, c, e, p⟩
      have hl : .diamond ∉ l := by
        intro hm
        have : 3 ≤ (marked l [] r).count Letter.diamond := by
          simp only [marked, List.nil_append, List.count_append, List.count_cons_self]
          have := List.count_pos_iff.2 hm
          omega
        rw [e] at this
        simp only [marked, List.count_append, List.count_cons_self, List.count_eq_zero.2 a.no_diamond, List.count_eq_zero.2 b.no_diamond,
          List.count_eq_zero.2 c.no_diamond] at this
        omega
      obtain ⟨rfl, rfl, rfl⟩ := marked_inj hl (by simp) a.no_diamond b.no_diamond e
      exact ⟨a, c, p⟩
    · rintro ⟨a, c, p⟩
      exact ⟨l, [], r, a, pairs_nil, c, rfl, p⟩
  refine ⟨⟨⟨fun m h => hC.1 m ((h1 m).1 h), fun u => ?_⟩, fun u => ?_⟩, h1, h2⟩
  · rw [hC.2]
    simp only [h1]
  · rw [hP]
    simp only [h2]
    constructor
    · rintro ⟨l, m, r, a, b, c, e, p⟩
      exact ⟨l, m, r, a, b, c, e, a, c, p⟩
    · rintro ⟨l, m, r, a, b, c, e, _, _, p⟩
      exact ⟨l, m, r, a, b, c, e, p⟩

theorem Rule.Wf.restrict (R : L.Right) {x y : Rule L} (hx : x.Wf) (hy : y.Wf) :
    (x.restrict L y).Wf ∧ ∀ l r, (x.restrict L y).P l r ↔ x.P l r ∧ ¬ y.P l r := by
  have h : ∀ l r, (x.restrict L y).P l r ↔ x.P l r ∧ ¬ y.P l r := fun l r => R.subtract _ _ _
  refine ⟨⟨hx.1, ctx_congr (ctx_subtract R hx.2 hy.2) fun l r _ _ => (h l r).symm⟩, h⟩

theorem Rule.Wf.join (R : L.Right) {x y : Rule L} (hx : x.Wf) (hy : y.Wf) :
    (x.join L y).Wf ∧ ∀ l r, (x.join L y).P l r ↔ x.P l r ∨ y.P l r := by
  have h : ∀ l r, (x.join L y).P l r ↔ x.P l r ∨ y.P l r := fun l r => R.disjunct _ _ _
  refine ⟨⟨hx.1, ctx_congr (ctx_disjunct R hx.2 hy.2) fun l r _ _ => (h l r).symm⟩, h⟩

end Hfst.TwolcRule
