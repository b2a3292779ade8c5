import Verif.Props.TransducerMeans
import Mathlib.Tactic.SplitIfs

/-!
# C72: composition
-/
namespace Hfst.Trans
open Hfst.Basic Hfst.Lexc

/-! ## Strings of joined sequences -/

theorem ins_cons (p : Sym × Sym) (l : List (Sym × Sym)) : ins (p :: l) = if p.1 = epsilon then ins l else p.1 :: ins l := by
  unfold ins
  by_cases h : p.1 = epsilon <;> simp [h]

theorem outs_cons (p : Sym × Sym) (l : List (Sym × Sym)) : outs (p :: l) = if p.2 = epsilon then outs l else p.2 :: outs l := by
  unfold outs
  by_cases h : p.2 = epsilon <;> simp [h]

theorem ins_append (a b : List (Sym × Sym)) : ins (a ++ b) = ins a ++ ins b := by simp [ins]

theorem outs_append (a b : List (Sym × Sym)) : outs (a ++ b) = outs a ++ outs b := by simp [outs]

theorem ins_strip (l : List (Sym × Sym)) : ins (strip l) = ins l := by
  induction l with
  | nil => rfl
  | cons p l ih =>
    by_cases h : p = (epsilon, epsilon)
    · rw [h, strip_cons_eps, ih, ins_cons]; simp
    · rw [strip_cons h, ins_cons, ins_cons, ih]

theorem outs_strip (l : List (Sym × Sym)) : outs (strip l) = outs l := by
  induction l with
  | nil => rfl
  | cons p l ih =>
    by_cases h : p = (epsilon, epsilon)
    · rw [h, strip_cons_eps, ih, outs_cons]; simp
    · rw [strip_cons h, outs_cons, outs_cons, ih]

theorem Joined.sides {a b c : List (Sym × Sym)} (h : Joined a b c) : ins c = ins a ∧ outs c = outs b ∧ outs a = ins b := by
  induction h with
  | nil => exact ⟨rfl, rfl, rfl⟩
  | both hy _ ih => simp [ins_cons, outs_cons, ih.1, ih.2.1, ih.2.2]
  | left _ ih => simp [ins_cons, outs_cons, ih.1, ih.2.1, ih.2.2]
  | right _ ih => simp [ins_cons, outs_cons, ih.1, ih.2.1, ih.2.2]

/-! ## The symbols in the middle -/

/-- Identity becomes unknown. -/
def hat (y : Sym) : Sym := if y = identity then unknown else y

def hatOut (p : Sym × Sym) : Sym × Sym := (p.1, hat p.2)
def hatIn (p : Sym × Sym) : Sym × Sym := (hat p.1, p.2)

/-- What happens to a pair with identity on one side. -/
def fixp (p : Sym × Sym) : Sym × Sym :=
  if p.1 = identity ∧ p.2 ≠ identity then (unknown, p.2)
  else if p.2 = identity ∧ p.1 ≠ identity then (p.1, unknown) else p

theorem singleIdentity_fixp (p : Sym × Sym) : (singleIdentity p).getD [p] = [fixp p] := by
  unfold singleIdentity fixp
  split_ifs <;> rfl

theorem fixp_eps : fixp (epsilon, epsilon) = (epsilon, epsilon) := by decide

theorem fixp_eq_eps {p : Sym × Sym} : fixp p = (epsilon, epsilon) ↔ p = (epsilon, epsilon) := by
  constructor
  · intro h
    unfold fixp at h
    split_ifs at h with h1 h2
    · exact absurd (congrArg Prod.fst h).symm epsilon_ne_unknown
    · exact absurd (congrArg Prod.snd h).symm epsilon_ne_unknown
    · exact h
  · rintro rfl; exact fixp_eps

theorem hat_eps {y : Sym} : hat y = epsilon ↔ y = epsilon := by
  unfold hat
  split_ifs with h
  · exact ⟨fun h => absurd h.symm epsilon_ne_unknown, fun e => absurd (e.symm.trans h) epsilon_ne_identity⟩
  · exact Iff.rfl

theorem hat_id : hat identity = unknown := by decide
theorem hat_unk : hat unknown = unknown := by decide

/-- Unknown symbols are taken together. -/
noncomputable def cls (al : List Sym) (y : Sym) : Sym := by
  classical exact if Outside al y then unknown else y

theorem cls_eps {al : List Sym} {y : Sym} : cls al y = epsilon ↔ y = epsilon := by
  unfold cls
  split_ifs with h
  · exact ⟨fun h => absurd h.symm epsilon_ne_unknown, fun e => absurd e h.1.1⟩
  · exact Iff.rfl

theorem st_cls {al : List Sym} {p q : Sym × Sym} (hp : p.1 ∈ al ∧ p.2 ∈ al) (h : St al p q) :
    hat p.1 = cls al q.1 ∧ hat p.2 = cls al q.2 := by
  obtain ⟨i, o⟩ := p
  obtain ⟨x, y⟩ := q
  dsimp only at hp
  rw [st_iff] at h
  unfold hat cls
  rcases h with ⟨h1, h2, h3, h4⟩ | ⟨h1, h2, h3, h4, h5⟩
  · subst h3
    simp [h1, h2, h4]
  · constructor
    · rcases h3 with ⟨a, b⟩ | ⟨a, b⟩
      · simp [a, b, unknown_ne_identity]
      · have : ¬ Outside al x := fun h => h.2 (b ▸ hp.1)
        simp [h1, b, b ▸ this]
    · rcases h4 with ⟨a, b⟩ | ⟨a, b⟩
      · simp [a, b, unknown_ne_identity]
      · have : ¬ Outside al y := fun h => h.2 (b ▸ hp.2)
        simp [h2, b, b ▸ this]

theorem outs_cls {al : List Sym} {a a' : List (Sym × Sym)} (ha : ∀ p ∈ a, p.1 ∈ al ∧ p.2 ∈ al)
    (h : List.Forall₂ (St al) a a') : outs (a.map hatOut) = (outs a').map (cls al) := by
  induction h with
  | nil => rfl
  | @cons p q a a' hpq _ ih =>
    have hc := (st_cls (ha p (by simp)) hpq).2
    rw [List.map_cons, outs_cons, outs_cons, ih fun p hp => ha p (by simp [hp])]
    have : (hatOut p).2 = cls al q.2 := hc
    rw [this]
    by_cases he : q.2 = epsilon
    · rw [if_pos (cls_eps.mpr he), if_pos he]
    · rw [if_neg (fun h => he (cls_eps.mp h)), if_neg he]; rfl

theorem ins_cls {al : List Sym} {a a' : List (Sym × Sym)} (ha : ∀ p ∈ a, p.1 ∈ al ∧ p.2 ∈ al)
    (h : List.Forall₂ (St al) a a') : ins (a.map hatIn) = (ins a').map (cls al) := by
  induction h with
  | nil => rfl
  | @cons p q a a' hpq _ ih =>
    have hc := (st_cls (ha p (by simp)) hpq).1
    rw [List.map_cons, ins_cons, ins_cons, ih fun p hp => ha p (by simp [hp])]
    have : (hatIn p).1 = cls al q.1 := hc
    rw [this]
    by_cases he : q.1 = epsilon
    · rw [if_pos (cls_eps.mpr he), if_pos he]
    · rw [if_neg (fun h => he (cls_eps.mp h)), if_neg he]; rfl

/-! ## One step -/

/-- Like `St`, but if `allow` holds, unknown on both sides may also stand for two equal symbols. -/
def Loose (allow : Prop) (al : List Sym) (p q : Sym × Sym) : Prop :=
  St al p q ∨ (allow ∧ p = (unknown, unknown) ∧ q.1 = q.2 ∧ Outside al q.1)

theorem loose_false {al : List Sym} {p q : Sym × Sym} : Loose False al p q ↔ St al p q := by simp [Loose]

theorem loose_eps {allow : Prop} {al : List Sym} {p : Sym × Sym} :
    Loose allow al p (epsilon, epsilon) ↔ p = (epsilon, epsilon) := by
  unfold Loose
  rw [st_eps]
  exact ⟨fun h => h.elim id fun h => absurd rfl h.2.2.2.1.1, .inl⟩

theorem loose_from_eps {allow : Prop} {al : List Sym} {q : Sym × Sym} :
    Loose allow al (epsilon, epsilon) q ↔ q = (epsilon, epsilon) := by
  unfold Loose
  rw [st_from_eps]
  exact ⟨fun h => h.elim id fun h => absurd (congrArg Prod.fst h.2.1) epsilon_ne_unknown, .inl⟩

theorem paired_ne {i o : Sym} (h : i = identity ↔ o = identity) (ho : o ≠ identity) : i ≠ identity := fun e => ho (h.mp e)

theorem step_sound {allow : Prop} {al : List Sym} {x y0 y1 z : Sym} (hp : x = identity ↔ y0 = identity)
    (hq : y1 = identity ↔ z = identity) (he : hat y0 = hat y1) (hne : hat y0 ≠ epsilon)
    (hal : allow → y0 ≠ unknown ∧ y0 ≠ identity) {c d : Sym} (h : Loose allow al (fixp (x, z)) (c, d)) :
    ∃ m, m ≠ epsilon ∧ St al (x, y0) (c, m) ∧ St al (y1, z) (m, d) := by
  by_cases hu : hat y0 = unknown
  · -- the middle is an unknown symbol
    have hno : ¬ allow := by
      intro ha
      obtain ⟨h1, h2⟩ := hal ha
      unfold hat at hu
      rw [if_neg h2] at hu
      exact h1 hu
    have h : St al (fixp (x, z)) (c, d) := h.elim id fun h => absurd h.1 hno
    have cases_hat : ∀ {y}, hat y = unknown → y = identity ∨ (y = unknown ∧ y ≠ identity) := by
      intro y hy
      by_cases h : y = identity
      · exact .inl h
      · unfold hat at hy; rw [if_neg h] at hy; exact .inr ⟨hy, h⟩
    rcases cases_hat hu with h0 | ⟨h0, h0'⟩ <;> rcases cases_hat (he ▸ hu) with h1 | ⟨h1, h1'⟩
    · have hx := hp.mpr h0
      have hz := hq.mp h1
      have hf : fixp (x, z) = (identity, identity) := by rw [hx, hz]; decide
      rw [hf, st_iff] at h
      rcases h with ⟨_, _, e, ho⟩ | ⟨h, _⟩
      · subst e
        exact ⟨c, ho.1.1, st_iff.mpr (.inl ⟨hx, h0, rfl, ho⟩), st_iff.mpr (.inl ⟨h1, hz, rfl, ho⟩)⟩
      · exact absurd rfl h
    · have hx := hp.mpr h0
      have hz : z ≠ identity := fun e => h1' (hq.mpr e)
      have hf : fixp (x, z) = (unknown, z) := by unfold fixp; rw [if_pos ⟨hx, hz⟩]
      rw [hf] at h
      have ho : Outside al c := by
        rw [st_iff] at h
        rcases h with ⟨e, _⟩ | ⟨_, _, ⟨_, ho⟩ | ⟨e, _⟩, _⟩
        · exact absurd e unknown_ne_identity
        · exact ho
        · exact absurd rfl e
      exact ⟨c, ho.1.1, st_iff.mpr (.inl ⟨hx, h0, rfl, ho⟩), h1 ▸ h⟩
    · have hz := hq.mp h1
      have hx : x ≠ identity := fun e => h0' (hp.mp e)
      have hf : fixp (x, z) = (x, unknown) := by
        unfold fixp
        rw [if_neg (fun h => hx h.1), if_pos ⟨hz, hx⟩]
      rw [hf] at h
      have ho : Outside al d := by
        rw [st_iff] at h
        rcases h with ⟨_, e, _⟩ | ⟨_, _, _, ⟨_, ho⟩ | ⟨e, _⟩, _⟩
        · exact absurd e unknown_ne_identity
        · exact ho
        · exact absurd rfl e
      exact ⟨d, ho.1.1, h0 ▸ h, st_iff.mpr (.inl ⟨h1, hz, rfl, ho⟩)⟩
    · have hx : x ≠ identity := fun e => h0' (hp.mp e)
      have hz : z ≠ identity := fun e => h1' (hq.mpr e)
      have hf : fixp (x, z) = (x, z) := by
        unfold fixp
        rw [if_neg (fun h => hx h.1), if_neg (fun h => hz h.1)]
      rw [hf, st_iff] at h
      rcases h with ⟨e, _⟩ | ⟨_, _, h3, h4, _⟩
      · exact absurd e hx
      · obtain ⟨m, hm, hne'⟩ := exists_outside_ne al [c, d]
        simp only [List.mem_cons, List.not_mem_nil, or_false, not_or] at hne'
        exact ⟨m, hm.1.1, st_iff.mpr (.inr ⟨hx, h0', h3, .inl ⟨h0, hm⟩, fun _ _ e => hne'.1 e.symm⟩),
          st_iff.mpr (.inr ⟨h1', hz, .inl ⟨h1, hm⟩, h4, fun _ _ e => hne'.2 e⟩)⟩
  · -- the middle is a known symbol
    have known : ∀ {y}, hat y ≠ unknown → y ≠ identity ∧ y ≠ unknown ∧ hat y = y := by
      intro y hy
      have h : y ≠ identity := fun e => hy (by rw [e]; decide)
      have e : hat y = y := by unfold hat; rw [if_neg h]
      exact ⟨h, fun h' => hy (by rw [e, h']), e⟩
    obtain ⟨a1, a2, a3⟩ := known hu
    obtain ⟨b1, b2, b3⟩ := known (he ▸ hu : hat y1 ≠ unknown)
    have e01 : y0 = y1 := by rw [← a3, he, b3]
    subst e01
    have hx : x ≠ identity := fun e => a1 (hp.mp e)
    have hz : z ≠ identity := fun e => b1 (hq.mpr e)
    have hf : fixp (x, z) = (x, z) := by
      unfold fixp
      rw [if_neg (fun h => hx h.1), if_neg (fun h => hz h.1)]
    rw [hf] at h
    have hsides : (x = unknown ∧ Outside al c ∨ x ≠ unknown ∧ c = x) ∧ (z = unknown ∧ Outside al d ∨ z ≠ unknown ∧ d = z) := by
      rcases h with h | ⟨_, e, e', ho⟩
      · rw [st_iff] at h
        rcases h with ⟨e, _⟩ | ⟨_, _, h3, h4, _⟩
        · exact absurd e hx
        · exact ⟨h3, h4⟩
      · dsimp only at e' ho
        exact ⟨.inl ⟨congrArg Prod.fst e, ho⟩, .inl ⟨congrArg Prod.snd e, e' ▸ ho⟩⟩
    exact ⟨y0, a3 ▸ hne, st_iff.mpr (.inr ⟨hx, a1, hsides.1, .inr ⟨a2, rfl⟩, fun _ h => absurd h a2⟩),
      st_iff.mpr (.inr ⟨a1, hz, .inr ⟨a2, rfl⟩, hsides.2, fun h => absurd h a2⟩)⟩

theorem step_complete {al : List Sym} {x y0 y1 z c m d : Sym} (hal : (x ∈ al ∧ y0 ∈ al) ∧ y1 ∈ al ∧ z ∈ al)
    (h : St al (x, y0) (c, m)) (h' : St al (y1, z) (m, d)) :
    St al (fixp (x, z)) (c, d) ∨ (fixp (x, z) = (unknown, unknown) ∧ c = d ∧ Outside al c ∧ m ≠ c) := by
  rw [st_iff] at h h'
  rcases h with ⟨h1, h2, h3, h4⟩ | ⟨h1, h2, h3, h4, h5⟩ <;> rcases h' with ⟨k1, k2, k3, k4⟩ | ⟨k1, k2, k3, k4, k5⟩
  · left
    subst h3 k3
    have hf : fixp (x, z) = (identity, identity) := by rw [h1, k2]; decide
    rw [hf]
    exact st_iff.mpr (.inl ⟨rfl, rfl, rfl, h4⟩)
  · left
    subst h3
    have hf : fixp (x, z) = (unknown, z) := by unfold fixp; rw [if_pos ⟨h1, k2⟩]
    rw [hf]
    have hy : y1 = unknown := by
      rcases k3 with ⟨k3, _⟩ | ⟨_, e⟩
      · exact k3
      · exact absurd (e ▸ hal.2.1) h4.2
    exact st_iff.mpr (.inr ⟨unknown_ne_identity, k2, .inl ⟨rfl, h4⟩, k4, fun _ e => k5 hy e⟩)
  · left
    subst k3
    have hf : fixp (x, z) = (x, unknown) := by
      unfold fixp
      rw [if_neg (fun h => h1 h.1), if_pos ⟨k2, h1⟩]
    rw [hf]
    have hy : y0 = unknown := by
      rcases h4 with ⟨k3, _⟩ | ⟨_, e⟩
      · exact k3
      · exact absurd (e ▸ hal.1.2) k4.2
    exact st_iff.mpr (.inr ⟨h1, unknown_ne_identity, h3, .inl ⟨rfl, k4⟩, fun e _ => h5 e hy⟩)
  · have hf : fixp (x, z) = (x, z) := by
      unfold fixp
      rw [if_neg (fun h => h1 h.1), if_neg (fun h => k2 h.1)]
    rw [hf]
    by_cases hl : x = unknown ∧ z = unknown ∧ c = d
    · right
      obtain ⟨hx, hz, hcd⟩ := hl
      have ho : Outside al c := by
        rcases h3 with ⟨_, ho⟩ | ⟨e, _⟩
        · exact ho
        · exact absurd hx e
      refine ⟨by rw [hx, hz], hcd, ho, ?_⟩
      intro e
      have hy : y0 = unknown := by
        rcases h4 with ⟨k3, _⟩ | ⟨_, e'⟩
        · exact k3
        · subst e; exact absurd (e' ▸ hal.1.2) ho.2
      exact h5 hx hy e.symm
    · left
      exact st_iff.mpr (.inr ⟨h1, k2, h3, k4, fun e1 e2 e3 => hl ⟨e1, e2, e3⟩⟩)

/-! ## Sequences -/

theorem join_sound {allow : Prop} {al : List Sym} {A B j : List (Sym × Sym)} (hj : Joined A B j) :
    ∀ {a b c : List (Sym × Sym)}, A = a.map hatOut → B = b.map hatIn →
      (∀ p ∈ a, (p.1 = identity ↔ p.2 = identity)) → (∀ p ∈ b, (p.1 = identity ↔ p.2 = identity)) →
      (allow → ∀ p ∈ a, p.2 ≠ unknown ∧ p.2 ≠ identity) → List.Forall₂ (Loose allow al) (j.map fixp) c →
      ∃ a' b', List.Forall₂ (St al) a a' ∧ List.Forall₂ (St al) b b' ∧ Joined a' b' c := by
  induction hj with
  | nil =>
    intro a b c hA hB _ _ _ h
    rw [List.nil_eq, List.map_eq_nil_iff] at hA hB
    subst hA hB
    cases h
    exact ⟨[], [], .nil, .nil, .nil⟩
  | @both x y z A B j hy _ ih =>
    intro a b c hA hB pa pb hal h
    obtain ⟨⟨x0, y0⟩, a, rfl⟩ : ∃ p a0, a = p :: a0 := by
      cases a with
      | nil => cases hA
      | cons p a => exact ⟨p, a, rfl⟩
    obtain ⟨⟨y1, z1⟩, b, rfl⟩ : ∃ p b0, b = p :: b0 := by
      cases b with
      | nil => cases hB
      | cons p b => exact ⟨p, b, rfl⟩
    simp only [List.map_cons, List.cons.injEq, hatOut, hatIn, Prod.mk.injEq] at hA hB
    obtain ⟨⟨rfl, hy0⟩, hA⟩ := hA
    obtain ⟨⟨hy1, rfl⟩, hB⟩ := hB
    cases h with
    | @cons _ q _ c hq h =>
      obtain ⟨c0, d0⟩ := q
      obtain ⟨a', b', h1, h2, h3⟩ := ih hA hB (fun p hp => pa p (by simp [hp])) (fun p hp => pb p (by simp [hp]))
        (fun e p hp => hal e p (by simp [hp])) h
      obtain ⟨m, hm, s1, s2⟩ := step_sound (pa (x, y0) (by simp)) (pb (y1, z) (by simp)) (hy0.symm.trans hy1)
        (hy0 ▸ hy) (fun e => hal e (x, y0) (by simp)) hq
      exact ⟨_, _, .cons s1 h1, .cons s2 h2, .both hm h3⟩
  | @left x A B j _ ih =>
    intro a b c hA hB pa pb hal h
    obtain ⟨⟨x0, y0⟩, a, rfl⟩ : ∃ p a0, a = p :: a0 := by
      cases a with
      | nil => cases hA
      | cons p a => exact ⟨p, a, rfl⟩
    simp only [List.map_cons, List.cons.injEq, hatOut, Prod.mk.injEq] at hA
    obtain ⟨⟨rfl, hy0⟩, hA⟩ := hA
    have hy0 := hat_eps.mp hy0.symm
    subst hy0
    cases h with
    | @cons _ q _ c hq h =>
      obtain ⟨c0, d0⟩ := q
      obtain ⟨a', b', h1, h2, h3⟩ := ih hA hB (fun p hp => pa p (by simp [hp])) pb
        (fun e p hp => hal e p (by simp [hp])) h
      have hx : x ≠ identity := fun e => epsilon_ne_identity ((pa (x, epsilon) (by simp)).mp e)
      have hf : fixp (x, epsilon) = (x, epsilon) := by
        unfold fixp
        rw [if_neg (fun h => hx h.1), if_neg (fun h => epsilon_ne_identity h.1)]
      rw [hf] at hq
      have hq : St al (x, epsilon) (c0, d0) :=
        hq.elim id fun h => absurd (congrArg Prod.snd h.2.1) epsilon_ne_unknown
      have hd : d0 = epsilon := by
        rcases st_iff.mp hq with ⟨_, e, _⟩ | ⟨_, _, _, ⟨e, _⟩ | ⟨_, e⟩, _⟩
        · exact absurd e epsilon_ne_identity
        · exact absurd e epsilon_ne_unknown
        · exact e
      subst hd
      exact ⟨_, _, .cons hq h1, h2, .left h3⟩
  | @right z A B j _ ih =>
    intro a b c hA hB pa pb hal h
    obtain ⟨⟨y1, z1⟩, b, rfl⟩ : ∃ p b0, b = p :: b0 := by
      cases b with
      | nil => cases hB
      | cons p b => exact ⟨p, b, rfl⟩
    simp only [List.map_cons, List.cons.injEq, hatIn, Prod.mk.injEq] at hB
    obtain ⟨⟨hy1, rfl⟩, hB⟩ := hB
    have hy1 := hat_eps.mp hy1.symm
    subst hy1
    cases h with
    | @cons _ q _ c hq h =>
      obtain ⟨c0, d0⟩ := q
      obtain ⟨a', b', h1, h2, h3⟩ := ih hA hB pa (fun p hp => pb p (by simp [hp])) hal h
      have hz : z ≠ identity := fun e => epsilon_ne_identity ((pb (epsilon, z) (by simp)).mpr e)
      have hf : fixp (epsilon, z) = (epsilon, z) := by
        unfold fixp
        rw [if_neg (fun h => epsilon_ne_identity h.1), if_neg (fun h => hz h.1)]
      rw [hf] at hq
      have hq : St al (epsilon, z) (c0, d0) :=
        hq.elim id fun h => absurd (congrArg Prod.fst h.2.1) epsilon_ne_unknown
      have hd : c0 = epsilon := by
        rcases st_iff.mp hq with ⟨e, _⟩ | ⟨_, _, ⟨e, _⟩ | ⟨_, e⟩, _⟩
        · exact absurd e epsilon_ne_identity
        · exact absurd e epsilon_ne_unknown
        · exact e
      subst hd
      exact ⟨_, _, h1, .cons hq h2, .right h3⟩

theorem st_eps_out {al : List Sym} {x c d : Sym} (h : St al (x, epsilon) (c, d)) : d = epsilon := by
  rcases st_iff.mp h with ⟨_, e, _⟩ | ⟨_, _, _, ⟨e, _⟩ | ⟨_, e⟩, _⟩
  · exact absurd e epsilon_ne_identity
  · exact absurd e epsilon_ne_unknown
  · exact e

theorem st_eps_in {al : List Sym} {x c d : Sym} (h : St al (epsilon, x) (c, d)) : c = epsilon := by
  rcases st_iff.mp h with ⟨e, _⟩ | ⟨_, _, ⟨e, _⟩ | ⟨_, e⟩, _⟩
  · exact absurd e epsilon_ne_identity
  · exact absurd e epsilon_ne_unknown
  · exact e

theorem join_complete {al : List Sym} {R : Sym × Sym → Sym × Sym → Prop} (hst : ∀ p q, St al p q → R p q)
    {A B j : List (Sym × Sym)} (hj : Joined A B j) :
    ∀ {a b a' b' : List (Sym × Sym)}, A = a.map hatOut → B = b.map hatIn →
      (∀ p ∈ a, p.1 ∈ al ∧ p.2 ∈ al) → (∀ p ∈ b, p.1 ∈ al ∧ p.2 ∈ al) →
      List.Forall₂ (St al) a a' → List.Forall₂ (St al) b b' → outs a' = ins b' →
      (∀ c m, (c, m) ∈ a' → (m, c) ∈ b' → Outside al c → m ≠ c → R (unknown, unknown) (c, c)) →
      ∃ c, List.Forall₂ R (j.map fixp) c ∧ Joined a' b' c := by
  induction hj with
  | nil =>
    intro a b a' b' hA hB _ _ ha hb _ _
    rw [List.nil_eq, List.map_eq_nil_iff] at hA hB
    subst hA hB
    cases ha; cases hb
    exact ⟨[], .nil, .nil⟩
  | @both x y z A B j hy _ ih =>
    intro a b a' b' hA hB la lb ha hb hio hR
    cases ha with
    | nil => cases hA
    | @cons p p' a a' hp ha =>
    cases hb with
    | nil => cases hB
    | @cons q q' b b' hq hb =>
    obtain ⟨x0, y0⟩ := p
    obtain ⟨c0, m0⟩ := p'
    obtain ⟨y1, z1⟩ := q
    obtain ⟨m1, d1⟩ := q'
    simp only [List.map_cons, List.cons.injEq, hatOut, hatIn, Prod.mk.injEq] at hA hB
    obtain ⟨⟨rfl, hy0⟩, hA⟩ := hA
    obtain ⟨⟨hy1, rfl⟩, hB⟩ := hB
    have c1 := (st_cls (la (x, y0) (by simp)) hp).2
    have c2 := (st_cls (lb (y1, z) (by simp)) hq).1
    dsimp only at c1 c2
    have n1 : m0 ≠ epsilon := fun e => hy (by rw [hy0, c1]; exact cls_eps.mpr e)
    have n2 : m1 ≠ epsilon := fun e => hy (by rw [hy1, c2]; exact cls_eps.mpr e)
    rw [outs_cons, ins_cons] at hio
    dsimp only at hio
    rw [if_neg n1, if_neg n2] at hio
    obtain ⟨e, hio'⟩ := List.cons.inj hio
    subst e
    obtain ⟨c, h1, h2⟩ := ih hA hB (fun p hp => la p (by simp [hp])) (fun p hp => lb p (by simp [hp])) ha hb hio'
      (fun c m h1 h2 => hR c m (by simp [h1]) (by simp [h2]))
    refine ⟨(c0, d1) :: c, .cons ?_ h1, .both n1 h2⟩
    rcases step_complete ⟨la (x, y0) (by simp), lb (y1, z) (by simp)⟩ hp hq with h | ⟨h3, h4, h5, h6⟩
    · exact hst _ _ h
    · subst h4
      rw [h3]
      exact hR c0 m0 (by simp) (by simp) h5 h6
  | @left x A B j _ ih =>
    intro a b a' b' hA hB la lb ha hb hio hR
    cases ha with
    | nil => cases hA
    | @cons p p' a a' hp ha =>
    obtain ⟨x0, y0⟩ := p
    obtain ⟨c0, m0⟩ := p'
    simp only [List.map_cons, List.cons.injEq, hatOut, Prod.mk.injEq] at hA
    obtain ⟨⟨rfl, hy0⟩, hA⟩ := hA
    have hy0 := hat_eps.mp hy0.symm
    subst hy0
    have := st_eps_out hp
    subst this
    rw [outs_cons, if_pos rfl] at hio
    obtain ⟨c, h1, h2⟩ := ih hA hB (fun p hp => la p (by simp [hp])) lb ha hb hio
      (fun c m h1 h2 => hR c m (by simp [h1]) h2)
    refine ⟨(c0, epsilon) :: c, .cons (hst _ _ ?_) h1, .left h2⟩
    have hx : x ≠ identity := by
      rintro rfl
      rcases st_iff.mp hp with ⟨_, e, _⟩ | ⟨e, _⟩
      · exact epsilon_ne_identity e
      · exact e rfl
    have hf : fixp (x, epsilon) = (x, epsilon) := by
      unfold fixp
      rw [if_neg (fun h => hx h.1), if_neg (fun h => epsilon_ne_identity h.1)]
    rw [hf]; exact hp
  | @right z A B j _ ih =>
    intro a b a' b' hA hB la lb ha hb hio hR
    cases hb with
    | nil => cases hB
    | @cons q q' b b' hq hb =>
    obtain ⟨y1, z1⟩ := q
    obtain ⟨m1, d1⟩ := q'
    simp only [List.map_cons, List.cons.injEq, hatIn, Prod.mk.injEq] at hB
    obtain ⟨⟨hy1, rfl⟩, hB⟩ := hB
    have hy1 := hat_eps.mp hy1.symm
    subst hy1
    have := st_eps_in hq
    subst this
    rw [ins_cons, if_pos rfl] at hio
    obtain ⟨c, h1, h2⟩ := ih hA hB la (fun p hp => lb p (by simp [hp])) ha hb hio
      (fun c m h1 h2 => hR c m h1 (by simp [h2]))
    refine ⟨(epsilon, d1) :: c, .cons (hst _ _ ?_) h1, .right h2⟩
    have hz : z ≠ identity := by
      rintro rfl
      rcases st_iff.mp hq with ⟨e, _⟩ | ⟨_, e, _⟩
      · exact epsilon_ne_identity e
      · exact e rfl
    have hf : fixp (epsilon, z) = (epsilon, z) := by
      unfold fixp
      rw [if_neg (fun h => epsilon_ne_identity h.1), if_neg (fun h => hz h.1)]
    rw [hf]; exact hq

theorem forall₂_unstrip' {R : Sym × Sym → Sym × Sym → Prop} (h1 : R (epsilon, epsilon) (epsilon, epsilon))
    (h2 : ∀ p, R p (epsilon, epsilon) → p = (epsilon, epsilon)) {k l : List (Sym × Sym)}
    (h : List.Forall₂ R (strip k) l) : ∃ l', List.Forall₂ R k l' ∧ strip l' = l := by
  induction k generalizing l with
  | nil => cases h; exact ⟨[], .nil, rfl⟩
  | cons p k ih =>
    by_cases hp : p = (epsilon, epsilon)
    · rw [hp, strip_cons_eps] at h
      obtain ⟨l', h3, h4⟩ := ih h
      exact ⟨(epsilon, epsilon) :: l', .cons (by rw [hp]; exact h1) h3, by rw [strip_cons_eps, h4]⟩
    · rw [strip_cons hp] at h
      cases h with
      | @cons _ q _ l hpq h =>
        obtain ⟨l', h3, h4⟩ := ih h
        have hq : q ≠ (epsilon, epsilon) := fun h => hp (h2 _ (h ▸ hpq))
        exact ⟨q :: l', .cons hpq h3, by rw [strip_cons hq, h4]⟩

theorem forall₂_strip' {R : Sym × Sym → Sym × Sym → Prop} (h1 : ∀ q, R (epsilon, epsilon) q → q = (epsilon, epsilon))
    (h2 : ∀ p, R p (epsilon, epsilon) → p = (epsilon, epsilon)) {k l : List (Sym × Sym)}
    (h : List.Forall₂ R k l) : List.Forall₂ R (strip k) (strip l) := by
  induction h with
  | nil => exact .nil
  | @cons p q k l hpq _ ih =>
    by_cases hp : p = (epsilon, epsilon)
    · have hq := h1 _ (hp ▸ hpq)
      rw [hp, hq, strip_cons_eps, strip_cons_eps]
      exact ih
    · have hq : q ≠ (epsilon, epsilon) := fun h => hp (h2 _ (h ▸ hpq))
      rw [strip_cons hp, strip_cons hq]
      exact .cons hpq ih

/-! ## Replacing identity by unknown on one side, and back -/

theorem strip_map_iff (f : Sym × Sym → Sym × Sym) (hf : ∀ p, f p = (epsilon, epsilon) ↔ p = (epsilon, epsilon))
    (l : List (Sym × Sym)) : strip (l.map f) = (strip l).map f := by
  induction l with
  | nil => rfl
  | cons p l ih =>
    by_cases h : p = (epsilon, epsilon)
    · rw [h, List.map_cons, (hf _).mpr rfl, strip_cons_eps, strip_cons_eps, ih]
    · rw [List.map_cons, strip_cons h, List.map_cons, strip_cons (fun e => h ((hf _).mp e)), ih]

theorem hatOut_eps (p : Sym × Sym) : hatOut p = (epsilon, epsilon) ↔ p = (epsilon, epsilon) := by
  obtain ⟨x, y⟩ := p
  simp only [hatOut, Prod.mk.injEq, hat_eps]

theorem hatIn_eps (p : Sym × Sym) : hatIn p = (epsilon, epsilon) ↔ p = (epsilon, epsilon) := by
  obtain ⟨x, y⟩ := p
  simp only [hatIn, Prod.mk.injEq, hat_eps]

theorem hat_spec {g : Graph} (hg : Good g) (i o : Bool) (f : Sym × Sym → Sym × Sym)
    (hf : ∀ p, renamePair identity unknown i o p = f p) (hfe : ∀ p, f p = (epsilon, epsilon) ↔ p = (epsilon, epsilon)) :
    ∃ g', g.substitute identity unknown i o = .ok g' ∧ Good g' ∧ Same g' g ∧
      ∀ k w, Cost g' k w ↔ ∃ a, Cost g a w ∧ k = a.map f := by
  have hv : (!Graph.isValidSymbol identity || !Graph.isValidSymbol unknown) = false := by decide
  have hne : identity ≠ unknown := fun e => unknown_ne_identity e.symm
  let g' : Graph := { g with states := g.states.map fun l => l.map (Graph.substArc identity unknown i o),
                             alphabet := setInsert g.alphabet unknown }
  have hs : g.substitute identity unknown i o = .ok g' := by
    unfold Graph.substitute
    rw [if_neg (by rw [hv]; simp), if_neg hne, if_neg (fun h => h hg.alpha.idn)]
    simp [g']
  have hal : Same g' g := by
    intro x
    show x ∈ setInsert g.alphabet unknown ↔ _
    rw [Hfst.Basic.mem_setInsert]
    exact ⟨fun h => h.elim (fun e => e ▸ hg.alpha.unk) id, .inr⟩
  refine ⟨g', hs, ⟨?_, ?_, hg.finals⟩, hal, ?_⟩
  · exact wf_mapStates hg.wf _ (by simp) (by
      intro l a ha
      obtain ⟨b, hb, rfl⟩ := List.mem_map.mp ha
      exact ⟨b, hb, rfl⟩) _
  · refine ⟨?_, (hal _).mpr hg.alpha.eps, (hal _).mpr hg.alpha.unk, (hal _).mpr hg.alpha.idn⟩
    intro s a ha
    rw [Graph.arcs_map g _ (by simp)] at ha
    obtain ⟨b, hb, rfl⟩ := List.mem_map.mp ha
    have hb' := hg.alpha.arcs s b hb
    rw [hal, hal]
    unfold Graph.substArc
    dsimp only
    constructor
    · split
      · exact hg.alpha.unk
      · exact hb'.1
    · split
      · exact hg.alpha.unk
      · exact hb'.2
  · intro k w
    have hc := C19_substitute g g' hg.alpha identity unknown i o hs
    have hfun : renamePair identity unknown i o = f := funext hf
    rw [hfun] at hc
    constructor
    · rintro ⟨l', v, ha, rfl, hv⟩
      obtain ⟨l0, h0, rfl⟩ := (hc _ _).mp ha
      exact ⟨strip l0, ⟨l0, v, h0, rfl, hv⟩, strip_map_iff f hfe l0⟩
    · rintro ⟨a, ⟨l0, v, h0, rfl, hv⟩, rfl⟩
      exact ⟨_, v, (hc _ _).mpr ⟨l0, h0, rfl⟩, strip_map_iff f hfe l0, hv⟩

theorem mem_fixp {al : List Sym} (hu : unknown ∈ al) {p : Sym × Sym} (hp : p.1 ∈ al ∧ p.2 ∈ al) :
    (fixp p).1 ∈ al ∧ (fixp p).2 ∈ al := by
  unfold fixp
  split_ifs
  · exact ⟨hu, hp.2⟩
  · exact ⟨hp.1, hu⟩
  · exact hp

theorem fixp_paired (p : Sym × Sym) : (fixp p).1 = identity ↔ (fixp p).2 = identity := by
  unfold fixp
  split_ifs with h1 h2
  · exact ⟨fun e => absurd e unknown_ne_identity, fun e => absurd e h1.2⟩
  · exact ⟨fun e => absurd e h2.2, fun e => absurd e unknown_ne_identity⟩
  · constructor
    · intro e
      by_contra h
      exact h1 ⟨e, h⟩
    · intro e
      by_contra h
      exact h2 ⟨e, h⟩

theorem fix_spec {g : Graph} (hg : Good g) (hne : [] ∉ g.alphabet) :
    ∃ r, g.substituteFunc singleIdentity = .ok r ∧ Usual r ∧ Same r g ∧
      ∀ k w, Cost r k w ↔ ∃ a, Cost g a w ∧ k = a.map fixp := by
  have hsome : ∀ {p ps}, singleIdentity p = some ps → ps = [fixp p] := by
    intro p ps h
    have := singleIdentity_fixp p
    rw [h] at this
    exact this
  obtain ⟨r, hr⟩ : ∃ r, g.substituteFunc singleIdentity = .ok r := by
    unfold Graph.substituteFunc
    dsimp only
    rw [if_neg, if_neg]
    · exact ⟨_, rfl⟩
    · rw [List.any_eq_true]
      rintro ⟨a, ha, h⟩
      obtain ⟨s, hs⟩ := (Graph.mem_flatten_states g a).mp ha
      cases hq : singleIdentity a.label with
      | none => rw [hq] at h; cases h
      | some ps =>
        rw [hq] at h
        dsimp only at h
        obtain ⟨p, hp, h⟩ := List.any_eq_true.mp h
        rw [hsome hq, List.mem_singleton] at hp
        have hm := mem_fixp hg.alpha.unk (p := a.label) (hg.alpha.arcs s a hs)
        rw [← hp] at hm
        have h1 : p.1 ≠ [] := fun e => hne (e ▸ hm.1)
        have h2 : p.2 ≠ [] := fun e => hne (e ▸ hm.2)
        simp [Graph.isValidSymbol, h1, h2] at h
    · rw [List.any_eq_true]
      rintro ⟨a, ha, h⟩
      have := hsome (of_decide_eq_true h)
      cases this
  have hc := C19_substituteFunc g r singleIdentity hr
  have hr0 := hr
  unfold Graph.substituteFunc at hr
  dsimp only at hr
  split at hr
  · cases hr
  split at hr
  · cases hr
  cases hr
  generalize hr : ({ g with
      states := g.states.map (Graph.substFuncArcs singleIdentity)
      alphabet := (g.states.flatten.flatMap fun a => match singleIdentity a.label with
        | some ps => ps.flatMap fun p => [p.1, p.2]
        | none => []).foldl setInsert g.alphabet } : Graph) = r at hc hr0
  have hal : Same r g := by
    intro x
    rw [← hr]
    dsimp only
    rw [mem_foldl_setInsert, List.mem_flatMap]
    constructor
    · rintro (⟨a, ha, h⟩ | h)
      · obtain ⟨s, hs⟩ := (Graph.mem_flatten_states g a).mp ha
        cases hq : singleIdentity a.label with
        | none => rw [hq] at h; cases h
        | some ps =>
          rw [hq] at h
          dsimp only at h
          rw [hsome hq] at h
          have hm := mem_fixp hg.alpha.unk (p := a.label) (hg.alpha.arcs s a hs)
          simp only [List.flatMap_cons, List.flatMap_nil, List.append_nil, List.mem_cons, List.not_mem_nil, or_false] at h
          rcases h with rfl | rfl
          · exact hm.1
          · exact hm.2
      · exact h
    · exact .inr
  have harcs : ∀ s, ∀ a ∈ r.arcs s, ∃ b ∈ g.arcs s, a.target = b.target ∧ a.label = fixp b.label := by
    intro s a ha
    rw [← hr, Graph.arcs_map g _ (by simp [Graph.substFuncArcs]), Graph.substFuncArcs, List.mem_append, List.mem_map,
      List.mem_flatMap] at ha
    rcases ha with ⟨b, hb, rfl⟩ | ⟨b, hb, h⟩
    · refine ⟨b, hb, ?_⟩
      have hf := singleIdentity_fixp b.label
      cases hq : singleIdentity b.label with
      | none =>
        rw [hq] at hf
        simp only [Option.getD_none, List.cons.injEq, and_true] at hf
        exact ⟨rfl, hf⟩
      | some ps =>
        rw [hsome hq]
        exact ⟨rfl, rfl⟩
    · refine ⟨b, hb, ?_⟩
      cases hq : singleIdentity b.label with
      | none => rw [hq] at h; cases h
      | some ps =>
        rw [hq] at h
        dsimp only at h
        obtain ⟨p, hp, rfl⟩ := List.mem_map.mp h
        rw [hsome hq, List.mem_singleton] at hp
        subst hp
        exact ⟨rfl, rfl⟩
  refine ⟨r, hr0, ⟨⟨⟨?_, ?_, ?_⟩, ⟨?_, (hal _).mpr hg.alpha.eps, (hal _).mpr hg.alpha.unk, (hal _).mpr hg.alpha.idn⟩, ?_⟩, ?_, ?_⟩,
    hal, ?_⟩
  · rw [← hr]; simpa using hg.wf.nonempty
  · intro s a ha
    obtain ⟨b, hb, h1, _⟩ := harcs s a ha
    rw [h1, ← hr]
    simpa using hg.wf.targets s b hb
  · intro s w hs
    rw [← hr] at hs ⊢
    simpa using hg.wf.finals s w hs
  · intro s a ha
    obtain ⟨b, hb, _, h2⟩ := harcs s a ha
    have hm := mem_fixp hg.alpha.unk (p := b.label) (hg.alpha.arcs s b hb)
    rw [← h2] at hm
    exact ⟨(hal _).mpr hm.1, (hal _).mpr hm.2⟩
  · rw [← hr]; exact hg.finals
  · intro s a ha
    obtain ⟨b, hb, _, h2⟩ := harcs s a ha
    have := fixp_paired b.label
    rw [← h2] at this
    exact this
  · exact fun h => hne ((hal _).mp h)
  · have hc' : ∀ l' w, Accepts r l' w ↔ ∃ l, Accepts g l w ∧ l' = l.map fixp := by
      intro l' w
      rw [hc]
      have : (fun p p' : Sym × Sym => p' ∈ (singleIdentity p).getD [p]) = fun p p' => p' = fixp p := by
        funext p p'
        rw [singleIdentity_fixp, List.mem_singleton]
      rw [this]
      simp only [forall₂_map]
    intro k w
    constructor
    · rintro ⟨l', v, ha, rfl, hv⟩
      obtain ⟨l0, h0, rfl⟩ := (hc' _ _).mp ha
      exact ⟨strip l0, ⟨l0, v, h0, rfl, hv⟩, strip_map_iff fixp (fun _ => fixp_eq_eps) l0⟩
    · rintro ⟨a, ⟨l0, v, h0, rfl, hv⟩, rfl⟩
      exact ⟨_, v, (hc' _ _).mpr ⟨l0, h0, rfl⟩, strip_map_iff fixp (fun _ => fixp_eq_eps) l0, hv⟩

/-! ## Composition -/

/-- An unknown symbol on the input side goes to itself only. -/
def KeepsInput (g : Graph) : Prop := ∀ l w, Means g l w → ∀ x y, (x, y) ∈ l → Outside g.alphabet x → y = x

/-- An unknown symbol on the output side comes from itself only. -/
def KeepsOutput (g : Graph) : Prop := ∀ l w, Means g l w → ∀ x y, (x, y) ∈ l → Outside g.alphabet y → x = y

/-- No unknown symbol on the output side. -/
def KnownOutput (g : Graph) : Prop := ∀ l w, Means g l w → ∀ x y, (x, y) ∈ l → ¬ Outside g.alphabet y

/-- Everything about composition at once. -/
theorem compose_core {B : Backend} (hB : B.Ok) {g h : Graph} (hg : Usual g) (hh : Usual h) (hs : SameSpecials g h) :
    ∃ r, compose B g h = .ok r ∧ Usual r ∧ (∀ x, x ∈ r.alphabet ↔ x ∈ g.alphabet ∨ x ∈ h.alphabet) ∧
      (∀ allow : Prop, (allow → KnownOutput g) → ∀ k w c, Cost r k w → List.Forall₂ (Loose allow r.alphabet) k c →
        ∃ a b j w₁ w₂, Means g a w₁ ∧ Means h b w₂ ∧ Joined a b j ∧ strip j = c ∧ w₁ + w₂ ≤ w) ∧
      (∀ R : Sym × Sym → Sym × Sym → Prop, (∀ p q, St r.alphabet p q → R p q) →
        (∀ q, R (epsilon, epsilon) q → q = (epsilon, epsilon)) → (∀ p, R p (epsilon, epsilon) → p = (epsilon, epsilon)) →
        ∀ a b w₁ w₂, Means g a w₁ → Means h b w₂ → outs a = ins b →
        (∀ c m, (c, m) ∈ a → (m, c) ∈ b → Outside r.alphabet c → m ≠ c → R (unknown, unknown) (c, c)) →
        ∃ k j, Cost r k (w₁ + w₂) ∧ Joined a b j ∧ List.Forall₂ R k (strip j)) := by
  obtain ⟨g', h', he, ug, uh, hsame, hal, dg, dh⟩ := prepared hg hh hs
  obtain ⟨g1, e1, G1, s1, c1⟩ := hat_spec ug.good false true hatOut
    (by intro p; simp [renamePair, hatOut, hat]) hatOut_eps
  obtain ⟨h1, e2, H1, s2, c2⟩ := hat_spec uh.good true false hatIn
    (by intro p; simp [renamePair, hatIn, hat]) hatIn_eps
  have hsame1 : Same g1 h1 := fun x => by rw [s1, s2]; exact hsame x
  have hG := hB.compose_good g1 h1 G1 H1 hsame1
  have hA : Same (B.compose g1 h1) g' := fun x => (hB.compose_alphabet g1 h1 G1 H1 hsame1 x).trans (s1 x)
  obtain ⟨r, e3, ur, s3, c3⟩ := fix_spec hG (fun e => ug.nonempty ((hA _).mp e))
  have hrg : ∀ x, x ∈ r.alphabet ↔ x ∈ g'.alphabet := fun x => (s3 x).trans (hA x)
  have hrh : ∀ x, x ∈ r.alphabet ↔ x ∈ h'.alphabet := fun x => (hrg x).trans (hsame x)
  refine ⟨r, ?_, ur, fun x => (hrg x).trans (hal x), ?_, ?_⟩
  · unfold compose
    dsimp only
    rw [he]
    simp only [Outcome.bind]
    rw [e1]
    simp only []
    rw [e2]
    simp only []
    exact e3
  · intro allow hallow k w c hk hc
    obtain ⟨k0, hk0, rfl⟩ := (c3 _ _).mp hk
    obtain ⟨A, C, j, w₁, w₂, hA', hC', hj, rfl, hw⟩ := hB.compose_sound g1 h1 G1 H1 hsame1 _ _ hk0
    obtain ⟨a, ha, rfl⟩ := (c1 _ _).mp hA'
    obtain ⟨b, hb, rfl⟩ := (c2 _ _).mp hC'
    rw [← strip_map_iff fixp (fun _ => fixp_eq_eps)] at hc
    obtain ⟨c', hc', rfl⟩ := forall₂_unstrip' (loose_eps.mpr rfl) (fun _ => loose_eps.mp) hc
    have hknown : allow → ∀ p ∈ a, p.2 ≠ unknown ∧ p.2 ≠ identity := by
      intro hal' p hp
      obtain ⟨l, hl⟩ := forall₂_exists (al := g'.alphabet) (ug.cost_paired ha)
      have hm := (dg l w₁).mp (means_iff.mpr ⟨a, ha, hl⟩)
      obtain ⟨i, hi⟩ := List.mem_iff_getElem?.mp hp
      have hlen := hl.length_eq
      have hil : i < a.length := by
        by_contra hcon
        rw [List.getElem?_eq_none (by omega)] at hi
        cases hi
      have hst := (List.forall₂_iff_get.mp hl).2 i hil (hlen ▸ hil)
      have hpe : a.get ⟨i, hil⟩ = p := by
        rw [List.getElem?_eq_getElem hil] at hi
        exact Option.some.inj hi
      rw [hpe] at hst
      generalize hq : l.get ⟨i, hlen ▸ hil⟩ = q at hst
      have hql : q ∈ l := hq ▸ List.get_mem l _
      obtain ⟨x, y⟩ := q
      obtain ⟨p1, p2⟩ := p
      have hno := hallow hal' l w₁ hm x y hql
      have hout : Outside g'.alphabet y → Outside g.alphabet y := fun ho => ⟨ho.1, fun e => ho.2 ((hal y).mpr (.inl e))⟩
      rw [st_iff] at hst
      constructor
      · rintro rfl
        rcases hst with ⟨_, e, _⟩ | ⟨_, _, _, ⟨_, ho⟩ | ⟨e, _⟩, _⟩
        · exact unknown_ne_identity e
        · exact hno (hout ho)
        · exact e rfl
      · rintro rfl
        rcases hst with ⟨_, _, rfl, ho⟩ | ⟨_, e, _⟩
        · exact hno (hout ho)
        · exact e rfl
    obtain ⟨a', b', h1', h2', h3'⟩ := join_sound (al := r.alphabet) hj rfl rfl (ug.cost_paired ha) (uh.cost_paired hb)
      hknown hc'
    exact ⟨a', b', c', w₁, w₂, (dg _ _).mp (means_iff.mpr ⟨a, ha, forall₂_congr hrg h1'⟩),
      (dh _ _).mp (means_iff.mpr ⟨b, hb, forall₂_congr hrh h2'⟩), h3', rfl, hw⟩
  · intro R hR hR1 hR2 a' b' w₁ w₂ ha hb hio hlost
    obtain ⟨a, ha, fa⟩ := means_iff.mp ((dg _ _).mpr ha)
    obtain ⟨b, hb, fb⟩ := means_iff.mp ((dh _ _).mpr hb)
    have fa := forall₂_congr (fun x => (hrg x).symm) fa
    have fb := forall₂_congr (fun x => (hrh x).symm) fb
    have la : ∀ p ∈ a, p.1 ∈ r.alphabet ∧ p.2 ∈ r.alphabet := fun p hp => by
      have := ug.cost_alpha ha p hp
      exact ⟨(hrg _).mpr this.1, (hrg _).mpr this.2⟩
    have lb : ∀ p ∈ b, p.1 ∈ r.alphabet ∧ p.2 ∈ r.alphabet := fun p hp => by
      have := uh.cost_alpha hb p hp
      exact ⟨(hrh _).mpr this.1, (hrh _).mpr this.2⟩
    obtain ⟨j, hj, hcj⟩ := hB.compose_complete g1 h1 G1 H1 hsame1 _ _ w₁ w₂ ((c1 _ _).mpr ⟨a, ha, rfl⟩)
      ((c2 _ _).mpr ⟨b, hb, rfl⟩) (by rw [outs_cls la fa, ins_cls lb fb, hio])
    obtain ⟨c, hc1, hc2⟩ := join_complete hR hj rfl rfl la lb fa fb hio hlost
    refine ⟨(strip j).map fixp, c, (c3 _ _).mpr ⟨_, hcj, rfl⟩, hc2, ?_⟩
    rw [← strip_map_iff fixp (fun _ => fixp_eq_eps)]
    exact forall₂_strip' hR1 hR2 hc1

theorem forall₂_loose_false {al : List Sym} {k c : List (Sym × Sym)} :
    List.Forall₂ (Loose False al) k c ↔ List.Forall₂ (St al) k c := by
  have : Loose False al = St al := by funext p q; exact propext loose_false
  rw [this]

/-- Composition, pair by pair: every sequence of the result is joined from one of each transducer, and two sequences that fit
are joined, if unknown symbols are kept on the input side of the first or on the output side of the second transducer. -/
theorem compose_means {B : Backend} (hB : B.Ok) {g h : Graph} (hg : Usual g) (hh : Usual h) (hs : SameSpecials g h) :
    ∃ r, compose B g h = .ok r ∧ Usual r ∧ (∀ x, x ∈ r.alphabet ↔ x ∈ g.alphabet ∨ x ∈ h.alphabet) ∧
      (∀ c w, Means r c w → ∃ a b j w₁ w₂, Means g a w₁ ∧ Means h b w₂ ∧ Joined a b j ∧ strip j = c ∧ w₁ + w₂ ≤ w) ∧
      (KeepsInput g ∨ KeepsOutput h → ∀ a b w₁ w₂, Means g a w₁ → Means h b w₂ → outs a = ins b →
        ∃ j, Joined a b j ∧ Means r (strip j) (w₁ + w₂)) := by
  obtain ⟨r, h1, h2, h3, h4, h5⟩ := compose_core hB hg hh hs
  refine ⟨r, h1, h2, h3, ?_, ?_⟩
  · intro c w hm
    obtain ⟨k, hk, hf⟩ := means_iff.mp hm
    exact h4 False (fun h => h.elim) k w c hk (forall₂_loose_false.mpr hf)
  · intro hkeep a b w₁ w₂ ha hb hio
    obtain ⟨k, j, hk, hj, hf⟩ := h5 (St r.alphabet) (fun _ _ h => h) (fun _ => st_from_eps.mp) (fun _ => st_eps.mp) a b w₁ w₂ ha hb hio (by
      intro c m hc hm ho hne
      exfalso
      have og : Outside g.alphabet c := ⟨ho.1, fun e => ho.2 ((h3 c).mpr (.inl e))⟩
      have oh : Outside h.alphabet c := ⟨ho.1, fun e => ho.2 ((h3 c).mpr (.inr e))⟩
      rcases hkeep with hk | hk
      · exact hne (hk a w₁ ha c m hc og)
      · exact hne (hk b w₂ hb m c hm oh))
    exact ⟨j, hj, means_iff.mpr ⟨k, hk, hf⟩⟩

/-- C72, one half: a string that the composition maps to another is mapped there by way of a third one, with added weights. -/
theorem C72_sound {B : Backend} (hB : B.Ok) (g h r : Graph) (hg : Usual g) (hh : Usual h) (hs : SameSpecials g h)
    (hr : compose B g h = .ok r) (s t : List Sym) (w : Int) (hrel : Relates r s t w) :
    ∃ u w₁ w₂, Relates g s u w₁ ∧ Relates h u t w₂ ∧ w₁ + w₂ ≤ w := by
  obtain ⟨r', e, _, _, hsound, _⟩ := compose_means hB hg hh hs
  rw [hr] at e
  cases e
  obtain ⟨c, hc, rfl, rfl⟩ := hrel
  obtain ⟨a, b, j, w₁, w₂, ha, hb, hj, rfl, hw⟩ := hsound c w hc
  obtain ⟨h1, h2, h3⟩ := hj.sides
  exact ⟨outs a, w₁, w₂, ⟨a, ha, by rw [ins_strip, h1], rfl⟩, ⟨b, hb, h3.symm, by rw [outs_strip, h2]⟩, hw⟩

/-- C72: the composition of two transducers maps exactly the strings it should, with the best weights, if an unknown symbol is
kept on the input side of the first or on the output side of the second one.  Missing: other transducers, see
`C72_violated`. -/
theorem C72_partial {B : Backend} (hB : B.Ok) (g h : Graph) (hg : Usual g) (hh : Usual h) (hs : SameSpecials g h)
    (hk : KeepsInput g ∨ KeepsOutput h) :
    ∃ r, compose B g h = .ok r ∧ Usual r ∧ ∀ s t w, Relates r s t w ↔
      ∃ u w₁ w₂, Relates g s u w₁ ∧ Relates h u t w₂ ∧ w₁ + w₂ ≤ w := by
  obtain ⟨r, e, u, _, _, hcomp⟩ := compose_means hB hg hh hs
  refine ⟨r, e, u, fun s t w => ⟨C72_sound hB g h r hg hh hs e s t w, ?_⟩⟩
  rintro ⟨u, w₁, w₂, ⟨a, ha, rfl, rfl⟩, ⟨b, hb, hio, rfl⟩, hw⟩
  obtain ⟨j, hj, hm⟩ := hcomp hk a b w₁ w₂ ha hb hio.symm
  obtain ⟨h1, h2, _⟩ := hj.sides
  exact ⟨strip j, hm.mono hw, by rw [ins_strip, h1], by rw [outs_strip, h2]⟩

end Hfst.Trans
