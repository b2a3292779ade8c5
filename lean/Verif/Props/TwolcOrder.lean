import Verif.Props.TwolcMeaning

/-!
# C90: a library that is right, examples, and grammars for which the order of the rules matters
-/
namespace Hfst.TwolcRule
open Hfst.Basic (Sym mapGet mapPut)

open Classical in
/-- A library that computes with languages. -/
noncomputable def setLib (decl : Sym → Sym → Prop) : Lib where
  T := List Letter → Prop
  lang := fun a => a
  declared := decl
  nothing := fun _ => False
  pair := fun i o w => w = [.pair i o]
  any := fun w => ∃ i o, (decl i o ∨ (i = otherSym ∧ o = otherSym)) ∧ w = [.pair i o]
  diamond := fun w => w = [.diamond]
  disjunct := fun a b w => a w ∨ b w
  concatenate := fun a b w => ∃ u v, a u ∧ b v ∧ w = u ++ v
  intersect := fun a b w => a w ∧ b w
  subtract := fun a b w => a w ∧ ¬ b w
  star := fun a w => ∃ l : List (List Letter), (∀ v ∈ l, a v) ∧ w = l.flatten
  dropDiamonds := fun a w => ∃ v, a v ∧ w = v.filter (· ≠ .diamond)
  abstracted := fun a u => ∃ v, a v ∧ SameInputs v u
  common := fun a b => decide (∃ w, a w ∧ b w)
  empty := fun a => decide (∀ w, ¬ a w)

theorem setLib_right (decl : Sym → Sym → Prop) : (setLib decl).Right where
  nothing := fun _ h => h
  pair := fun _ _ _ _ => Iff.rfl
  any := fun w => by
    constructor
    · rintro ⟨i, o, h, rfl⟩
      exact ⟨.pair i o, h, rfl⟩
    · rintro ⟨x, h, rfl⟩
      cases x with
      | pair i o => exact ⟨i, o, h, rfl⟩
      | diamond => exact h.elim
  diamond := fun _ => Iff.rfl
  disjunct := fun _ _ _ => Iff.rfl
  concatenate := fun _ _ _ => Iff.rfl
  intersect := fun _ _ _ => Iff.rfl
  subtract := fun _ _ _ => Iff.rfl
  star := fun _ _ => Iff.rfl
  dropDiamonds := fun _ _ => Iff.rfl
  abstracted := fun _ _ _ => Iff.rfl
  common := fun _ _ => by simp only [setLib, decide_eq_true_iff]
  empty := fun _ => by simp only [setLib, decide_eq_true_iff]

/-- The symbols of the example. -/
def sX : Sym := "x".toList
def sY : Sym := "y".toList
def sZ : Sym := "z".toList
def sU : Sym := "u".toList
def sA : Sym := "a".toList
def sB : Sym := "b".toList

/-- `Alphabet x:x x:y x:z x:u a b .#. ;` -/
def demoPairs : List (Sym × Sym) := [(sX, sX), (sX, sY), (sX, sZ), (sX, sU), (sA, sA), (sB, sB), (boundarySym, boundarySym)]

/-- The library for the example. -/
noncomputable def demoLib : Lib := setLib fun i o => (i, o) ∈ demoPairs

theorem demoRight : demoLib.Right := setLib_right _

theorem demo_boundary : demoLib.declared boundarySym boundarySym := (by decide : (boundarySym, boundarySym) ∈ demoPairs)

/-- A string as a left or right context. -/
def demoExpr (w : List Letter) : demoLib.T := fun v => v = w

/-- The rule `x:out <= left _ ;`. -/
noncomputable def demoRule (out : Sym) (left : List Letter) : Source demoLib :=
  ⟨"rule".toList, .pairs [(sX, out)], .left, [(demoExpr left, demoExpr [])], []⟩

theorem demo_applies (out : Sym) (left l r : List Letter) : (demoRule out left).Applies l r ↔ left <:+ l := by
  constructor
  · rintro ⟨⟨c, hc, ⟨l₁, l₂, rfl, h⟩, _⟩, _⟩
    simp only [demoRule, List.mem_singleton] at hc
    subst hc
    have : l₂ = left := h
    subst this
    exact ⟨l₁, rfl⟩
  · rintro ⟨l₁, rfl⟩
    refine ⟨⟨(demoExpr left, demoExpr []), List.mem_singleton.2 rfl, ⟨l₁, left, rfl, rfl⟩, [], r, rfl, rfl⟩, ?_⟩
    rintro ⟨c, hc, _⟩
    cases hc

theorem demo_good {out : Sym} {left : List Letter} (ho : (sX, out) ∈ demoPairs) (hl : Pairs demoLib left) : (demoRule out left).Good := by
  refine ⟨?_, ?_, ?_⟩
  · intro ps h p hp
    cases h
    rw [List.mem_singleton.1 hp]
    exact ho
  · intro c h
    cases h
  · intro c hc
    simp only [demoRule, List.append_nil, List.mem_singleton] at hc
    subst hc
    refine ⟨fun w hw => ?_, fun w hw => ?_⟩
    · have : w = left := hw
      subst this
      exact hl
    · have : w = [] := hw
      subst this
      exact pairs_nil

theorem demo_forces {out : Sym} {left : List Letter} {p : Sym × Sym} (h : (demoRule out left).Forces p) : p.1 ≠ zeroSym ∧ p.1 ≠ boundarySym := by
  obtain ⟨_, ps, h, hp⟩ := h
  cases h
  rw [List.mem_singleton.1 hp]
  exact ⟨(by decide : sX ≠ zeroSym), (by decide : sX ≠ boundarySym)⟩

theorem demo_narrow {o o' : Sym} {s s' : List Letter} (h : s <:+ s') : ApartOrNarrower (demoRule o s) (demoRule o' s') := by
  refine Or.inr fun l r _ _ _ ha => ?_
  rw [demo_applies] at ha ⊢
  exact h.trans ha

/-- The pairs `a:a` and `b:b`. -/
def pA : Letter := .pair sA sA
def pB : Letter := .pair sB sB
def pW : Letter := .pair boundarySym boundarySym

theorem valid_demo {i o : Sym} (h : (i, o) ∈ demoPairs) : Valid demoLib (.pair i o) := Or.inl h

theorem valid_A : Valid demoLib pA := valid_demo (by decide)
theorem valid_B : Valid demoLib pB := valid_demo (by decide)
theorem valid_W : Valid demoLib pW := valid_demo (by decide)

/-- `x:y <= _ ;`, `x:z <= a _ ;`, `x:u <= b a _ ;`. -/
noncomputable def ruleY : Source demoLib := demoRule sY []
noncomputable def ruleZ : Source demoLib := demoRule sZ [pA]
noncomputable def ruleU : Source demoLib := demoRule sU [pB, pA]

theorem pairs_cons {a : Letter} {w : List Letter} (ha : Valid demoLib a) (hw : Pairs demoLib w) : Pairs demoLib (a :: w) := by
  intro x hx
  rcases List.mem_cons.1 hx with rfl | hx
  · exact ha
  · exact hw x hx

theorem good_Y : ruleY.Good := demo_good (by decide) pairs_nil
theorem good_Z : ruleZ.Good := demo_good (by decide) (pairs_cons valid_A pairs_nil)
theorem good_U : ruleU.Good := demo_good (by decide) (pairs_cons valid_B (pairs_cons valid_A pairs_nil))

theorem good_all : ∀ s ∈ [ruleY, ruleZ, ruleU], s.Good := by
  intro s hs
  simp only [List.mem_cons, List.not_mem_nil, or_false] at hs
  rcases hs with rfl | rfl | rfl
  · exact good_Y
  · exact good_Z
  · exact good_U

theorem forces_all : ∀ s ∈ [ruleY, ruleZ, ruleU], ∀ p, s.Forces p → p.1 ≠ zeroSym ∧ p.1 ≠ boundarySym := by
  intro s hs
  simp only [List.mem_cons, List.not_mem_nil, or_false] at hs
  rcases hs with rfl | rfl | rfl <;> exact fun p h => demo_forces h

theorem forced_all : forced [ruleY, ruleZ, ruleU] = [(ruleY, (sX, sY)), (ruleZ, (sX, sZ)), (ruleU, (sX, sU))] := by
  simp [forced, ruleY, ruleZ, ruleU, demoRule]

theorem narrower_all : (forced [ruleY, ruleZ, ruleU]).Pairwise fun t u => t.2.1 = u.2.1 → ApartOrNarrower t.1 u.1 := by
  rw [forced_all]
  simp only [List.pairwise_cons, List.mem_cons, List.not_mem_nil, or_false, forall_eq_or_imp, forall_eq]
  refine ⟨⟨fun _ => demo_narrow (List.nil_suffix), fun _ => demo_narrow (List.nil_suffix)⟩, fun _ => demo_narrow ⟨[pB], rfl⟩, by simp⟩

/-- All conflicts are reported and resolved (`hfst-twolc -R`). -/
def demoOptions : Options := ⟨true, true, true, true⟩

/-- The word `.#. a:a x:q .#.`. -/
def demoWord (q : Sym) : List Letter := [pW, pA] ++ one (sX, q) ++ [pW]

theorem demoWord_pairs {q : Sym} (h : (sX, q) ∈ demoPairs) : Pairs demoLib (demoWord q) :=
  pairs_cons valid_W (pairs_cons valid_A (pairs_cons (valid_demo h) (pairs_cons valid_W pairs_nil)))

theorem demoWord_word {q : Sym} : IsWord (demoWord q) := by
  refine ⟨[pA, .pair sX q], rfl, ?_⟩
  simp only [List.mem_cons, List.not_mem_nil, or_false, pA, Letter.pair.injEq]
  rintro (⟨h, _⟩ | ⟨h, _⟩)
  · exact absurd h (by decide)
  · exact absurd h (by decide)

theorem rightObeyed_left {rs : List (Source demoLib)} (h : ∀ s ∈ rs, s.op = .left) (w : List Letter) : RightObeyed rs w := by
  rintro p ⟨s, hs, ⟨hr, _⟩⟩
  rw [h s hs] at hr
  rcases hr with h | h <;> cases h

theorem otherObeyed_left {rs : List (Source demoLib)} (h : ∀ s ∈ rs, ∃ o l, s = demoRule o l) (w : List Letter) : OtherObeyed rs w := by
  refine ⟨?_, ?_⟩
  · intro s hs p hf
    obtain ⟨o, l, rfl⟩ := h s hs
    cases hf.1
  · intro s hs c hc
    obtain ⟨o, l, rfl⟩ := h s hs
    cases hc

theorem demo_rules : ∀ s ∈ [ruleY, ruleZ, ruleU], ∃ o l, s = demoRule o l := by
  intro s hs
  simp only [List.mem_cons, List.not_mem_nil, or_false] at hs
  rcases hs with rfl | rfl | rfl <;> exact ⟨_, _, rfl⟩

theorem demo_left : ∀ s ∈ [ruleY, ruleZ, ruleU], s.op = .left := by
  intro s hs
  obtain ⟨_, _, rfl⟩ := demo_rules s hs
  rfl

theorem demoWord_split {q q' : Sym} {l r : List Letter} {a : Sym} (e : demoWord q = l ++ one (a, q') ++ r) (ha : a = sX) :
    l = [pW, pA] ∧ q' = q ∧ r = [pW] := by
  subst ha
  unfold demoWord one at e
  have nX : ∀ o, Letter.pair sX o ≠ pW ∧ Letter.pair sX o ≠ pA := by
    intro o
    constructor <;> (intro h; exact absurd (Letter.pair.inj h).1 (by decide))
  match l, e with
  | [], e => exact absurd (List.cons.inj e).1.symm (nX _).1
  | [_], e => exact absurd (List.cons.inj (List.cons.inj e).2).1.symm (nX _).2
  | [b, c], e =>
    simp only [List.cons_append, List.nil_append, List.cons.injEq, Letter.pair.injEq, true_and] at e
    exact ⟨by rw [e.1, e.2.1], e.2.2.1.symm, e.2.2.2.symm⟩
  | [b, c, d], e =>
    simp only [List.cons_append, List.nil_append, List.cons.injEq] at e
    exact absurd e.2.2.2.1.symm (nX _).1
  | b :: c :: d :: f :: l, e =>
    have := congrArg List.length e
    simp at this

/-- The example meets the hypotheses of `C90_specific_partial`: `x` is `z` after `a`, as the narrower rule says, and nothing else. -/
theorem demo_specific : .unresolvable ∉ (readRules demoOptions [ruleY, ruleZ, ruleU]).out ∧
    ∀ q, (sX, q) ∈ demoPairs → (AcceptedByAll (readRules demoOptions [ruleY, ruleZ, ruleU]).stored (demoWord q) ↔ q = sZ) := by
  obtain ⟨h1, h2⟩ := C90_specific_partial demoRight demo_boundary demoOptions rfl good_all forces_all narrower_all
  refine ⟨h1, fun q hq => ?_⟩
  rw [h2 _ (demoWord_pairs hq) demoWord_word, if_pos (show demoOptions.resolveRight = true from rfl)]
  have hU : ¬ ruleU.Applies [pW, pA] [pW] := by
    unfold ruleU
    rw [demo_applies]
    decide
  have hZ : ruleZ.Applies [pW, pA] [pW] := by
    unfold ruleZ
    rw [demo_applies]
    decide
  constructor
  · rintro ⟨_, _, h⟩
    refine h [pW, pA] sX q [pW] rfl [(ruleY, (sX, sY))] ruleZ (sX, sZ) [(ruleU, (sX, sU))] (by rw [forced_all]; rfl) rfl hZ ?_
    intro t ht _
    rw [List.mem_singleton.1 ht]
    exact hU
  · rintro rfl
    refine ⟨rightObeyed_left demo_left _, otherObeyed_left demo_rules _, ?_⟩
    intro l a q r e before s p after hf hpa ha hno
    rw [forced_all] at hf
    have hpx : p.1 = sX := by
      have : (s, p) ∈ [(ruleY, (sX, sY)), (ruleZ, (sX, sZ)), (ruleU, (sX, sU))] := by
        rw [hf]
        exact List.mem_append_right _ (List.mem_cons_self ..)
      simp only [List.mem_cons, List.not_mem_nil, or_false, Prod.mk.injEq] at this
      rcases this with ⟨_, rfl⟩ | ⟨_, rfl⟩ | ⟨_, rfl⟩ <;> rfl
    obtain ⟨rfl, rfl, rfl⟩ := demoWord_split e (hpa.symm.trans hpx)
    match before, hf with
    | [], hf =>
      simp only [List.nil_append, List.cons.injEq, Prod.mk.injEq] at hf
      obtain ⟨_, rfl⟩ := hf
      exact absurd hZ (hno (ruleZ, (sX, sZ)) (List.mem_cons_self ..) (hpx.symm.trans hpa))
    | [_], hf =>
      simp only [List.cons_append, List.nil_append, List.cons.injEq, Prod.mk.injEq] at hf
      exact congrArg Prod.snd hf.2.1.2
    | [_, _], hf =>
      simp only [List.cons_append, List.nil_append, List.cons.injEq, Prod.mk.injEq] at hf
      rw [← hf.2.2.1.1] at ha
      exact absurd ha hU
    | _ :: _ :: _ :: before, hf =>
      have := congrArg List.length hf
      simp at this

/-! ### The order of the rules -/

theorem addLeft_fields {L : Lib} (o : Options) (g : Grammar L) (r : Rule L) :
    (g.addLeft o r).heap = (((mapGet g.lefts r.centerPair.1).getD []).foldl (leftStep o) (g.heap, r, g.out)).1 ++
      [(((mapGet g.lefts r.centerPair.1).getD []).foldl (leftStep o) (g.heap, r, g.out)).2.1] ∧
    (g.addLeft o r).out = (((mapGet g.lefts r.centerPair.1).getD []).foldl (leftStep o) (g.heap, r, g.out)).2.2 ∧
    (mapGet (g.addLeft o r).lefts r.centerPair.1).getD [] = (mapGet g.lefts r.centerPair.1).getD [] ++ [g.heap.length] := by
  refine ⟨rfl, rfl, ?_⟩
  unfold Grammar.addLeft Grammar.insertGroup
  dsimp only
  rw [get_put, if_pos rfl, Option.getD_some]

/-- Three rules that demand pairs with the same input symbol, the second narrower than the first, and the third with places that both have and places
that only the first of the remaining two has. -/
theorem three_left {L : Lib} (R : L.Right) (hb : L.declared boundarySym boundarySym) (o : Options) (hl : o.resolveLeft = true) (hrep : o.reportLeft = true)
    {r₁ r₂ r₃ : Rule L} (h₁ : r₁.Wf) (h₂ : r₂.Wf) (h₃ : r₃.Wf) (e₂ : r₂.centerPair.1 = r₁.centerPair.1) (e₃ : r₃.centerPair.1 = r₁.centerPair.1)
    (hn : ∀ l r, r₂.P l r → r₁.P l r) (hc : ∃ l r, Inside l r ∧ r₂.P l r ∧ r₃.P l r) (hd : ∃ l r, Inside l r ∧ r₁.P l r ∧ ¬ r₂.P l r ∧ r₃.P l r)
    (hf : ∃ l r, Inside l r ∧ r₁.P l r ∧ ¬ r₂.P l r ∧ ¬ r₃.P l r) :
    ∃ (h : List (Rule L)) (m : Rule L), ((((Grammar.init L).addLeft o r₁).addLeft o r₂).addLeft o r₃).heap = h ++ [m] ∧
      .unresolvable ∈ ((((Grammar.init L).addLeft o r₁).addLeft o r₂).addLeft o r₃).out ∧ h[0]? = some (r₁.restrict L r₂) ∧ Part r₃ m ∧
      ∀ l r, r₃.P l r → ¬ m.P l r → r₂.P l r := by
  obtain ⟨a1, a2, a3⟩ := addLeft_fields o (Grammar.init L) r₁
  have a1' : ((Grammar.init L).addLeft o r₁).heap = [r₁] := a1
  have a2' : ((Grammar.init L).addLeft o r₁).out = [] := a2
  have a3' : (mapGet ((Grammar.init L).addLeft o r₁).lefts r₁.centerPair.1).getD [] = [0] := a3
  generalize (Grammar.init L).addLeft o r₁ = g₁ at a1' a2' a3'
  obtain ⟨b1, b2, b3⟩ := addLeft_fields o g₁ r₂
  rw [e₂, a3', a1', a2'] at b1 b2
  rw [e₂, a3', a1'] at b3
  have hcon : r₁.conflicts L r₂ = true := by
    rw [conflicts_iff R hb h₁ h₂]
    obtain ⟨l, r, i, p, _⟩ := hc
    exact ⟨l, r, i, hn l r p, p⟩
  have hres : r₁.resolvable L r₂ = true := by
    rw [resolvable_iff R hb h₁ h₂]
    exact fun l r _ => hn l r
  have s1 : [0].foldl (leftStep o) ([r₁], r₂, []) = ([r₁.restrict L r₂], r₂, [.leftConflict r₁.name r₂.name, .restricting r₁.name]) := by
    rw [List.foldl_cons, List.foldl_nil]
    unfold leftStep
    simp [hcon, hres, hl, hrep]
  rw [s1] at b1 b2
  have b1' : (g₁.addLeft o r₂).heap = [r₁.restrict L r₂, r₂] := b1
  have b3' : (mapGet (g₁.addLeft o r₂).lefts r₁.centerPair.1).getD [] = [0, 1] := b3
  generalize g₁.addLeft o r₂ = g₂ at b1' b2 b3'
  obtain ⟨c1, c2, _⟩ := addLeft_fields o g₂ r₃
  rw [e₃, b3', b1'] at c1 c2
  obtain ⟨w12, p12⟩ := h₁.restrict R h₂
  have hcon2 : (r₁.restrict L r₂).conflicts L r₃ = true := by
    rw [conflicts_iff R hb w12 h₃]
    obtain ⟨l, r, i, p, q, t⟩ := hd
    exact ⟨l, r, i, (p12 l r).2 ⟨p, q⟩, t⟩
  have hr1 : (r₁.restrict L r₂).resolvable L r₃ ≠ true := by
    rw [Ne, resolvable_iff R hb w12 h₃]
    intro h
    obtain ⟨l, r, i, p, q⟩ := hc
    exact ((p12 l r).1 (h l r i q)).2 p
  have hr2 : r₃.resolvable L (r₁.restrict L r₂) ≠ true := by
    rw [Ne, resolvable_iff R hb h₃ w12]
    intro h
    obtain ⟨l, r, i, p, q, t⟩ := hf
    exact t (h l r i ((p12 l r).2 ⟨p, q⟩))
  have s2 : leftStep o ([r₁.restrict L r₂, r₂], r₃, g₂.out) 0 =
      ([r₁.restrict L r₂, r₂], r₃, g₂.out ++ [.leftConflict r₁.name r₃.name] ++ [.unresolvable]) := by
    unfold leftStep
    simp only [List.getElem?_cons_zero]
    rw [if_pos hcon2, if_pos hl, if_neg hr1, if_neg hr2, if_pos hrep, if_pos hrep]
    rfl
  have hw : ∀ x ∈ [r₁.restrict L r₂, r₂], x.Wf := by
    intro x hx
    simp only [List.mem_cons, List.not_mem_nil, or_false] at hx
    rcases hx with rfl | rfl
    · exact w12
    · exact h₂
  rw [List.foldl_cons, s2, List.foldl_cons, List.foldl_nil] at c1 c2
  obtain ⟨d1, d2, d3, _, ⟨m, d5⟩, d6, _⟩ := leftStep_spec R hb o ([r₁.restrict L r₂, r₂], r₃, g₂.out ++ [.leftConflict r₁.name r₃.name] ++ [.unresolvable]) 1 hw h₃
  refine ⟨_, _, c1, ?_, ?_, d2, ?_⟩
  · rw [c2, d5]
    simp
  · rw [d3 0 (by decide)]
    rfl
  · intro l r p q
    rcases d6 [1] l r (List.mem_singleton.2 rfl) (Or.inr p) with ⟨k, hk, x, hx, hxp⟩ | h
    · rw [List.mem_singleton.1 hk] at hx
      obtain ⟨y, hy, hpart⟩ := d1.back hx
      cases hy
      exact hpart.2.2.2.2.2 l r hxp
    · exact absurd h q

/-- The rule that is made for a demand of the example. -/
noncomputable def demoElem (out : Sym) (left : List Letter) : Rule demoLib :=
  Rule.make demoLib .left "rule".toList (sX, out) (getCenterPair demoLib (sX, out)) [(demoRule out left).ctx]

theorem demo_read (o : Options) (g : Grammar demoLib) (out : Sym) (left : List Letter) : g.read o (demoRule out left) = g.addLeft o (demoElem out left) := by
  rw [read_eq]
  rfl

theorem demoElem_spec {out : Sym} {left : List Letter} (ho : (sX, out) ∈ demoPairs) (hl : Pairs demoLib left) :
    (demoElem out left).Wf ∧ (∀ m, (demoElem out left).C m ↔ m = one (sX, out)) ∧
      ∀ l r, (demoElem out left).P l r ↔ (Pairs demoLib l ∧ Pairs demoLib r ∧ left <:+ l) := by
  obtain ⟨a, b, c⟩ := make_wf demoRight (demo_good ho hl) .left "rule".toList (sX, out) (cen_pair demoRight (p := (sX, out)) ho)
  refine ⟨a, b, fun l r => (c l r).trans ?_⟩
  rw [demo_applies]

theorem inside_demo {l : List Letter} (h : pW ∉ l) : Inside (pW :: l) [pW] := ⟨l, [], rfl, rfl, h, by simp⟩

theorem demo_three : ∃ h m, (readRules demoOptions [ruleY, ruleU, ruleZ]).heap = h ++ [m] ∧ .unresolvable ∈ (readRules demoOptions [ruleY, ruleU, ruleZ]).out ∧
    h[0]? = some ((demoElem sY []).restrict demoLib (demoElem sU [pB, pA])) ∧ Part (demoElem sZ [pA]) m ∧
    ∀ l r, (demoElem sZ [pA]).P l r → ¬ m.P l r → (demoElem sU [pB, pA]).P l r := by
  have pWW : Pairs demoLib [pW] := pairs_cons valid_W pairs_nil
  have sy := demoElem_spec (out := sY) (left := []) (by decide) pairs_nil
  have su := demoElem_spec (out := sU) (left := [pB, pA]) (by decide) (pairs_cons valid_B (pairs_cons valid_A pairs_nil))
  have sz := demoElem_spec (out := sZ) (left := [pA]) (by decide) (pairs_cons valid_A pairs_nil)
  have e : readRules demoOptions [ruleY, ruleU, ruleZ] =
      (((Grammar.init demoLib).addLeft demoOptions (demoElem sY [])).addLeft demoOptions (demoElem sU [pB, pA])).addLeft demoOptions (demoElem sZ [pA]) := by
    unfold readRules ruleY ruleU ruleZ
    simp only [List.foldl_cons, List.foldl_nil, demo_read]
  rw [e]
  refine three_left demoRight demo_boundary demoOptions rfl rfl sy.1 su.1 sz.1 rfl rfl ?_ ?_ ?_ ?_
  · intro l r h
    obtain ⟨a, b, _⟩ := (su.2.2 l r).1 h
    exact (sy.2.2 l r).2 ⟨a, b, List.nil_suffix⟩
  · have hp : Pairs demoLib [pW, pB, pA] := pairs_cons valid_W (pairs_cons valid_B (pairs_cons valid_A pairs_nil))
    refine ⟨[pW, pB, pA], [pW], inside_demo (by decide), (su.2.2 _ _).2 ⟨hp, pWW, by decide⟩, (sz.2.2 _ _).2 ⟨hp, pWW, by decide⟩⟩
  · have hp : Pairs demoLib [pW, pA] := pairs_cons valid_W (pairs_cons valid_A pairs_nil)
    refine ⟨[pW, pA], [pW], inside_demo (by decide), (sy.2.2 _ _).2 ⟨hp, pWW, by decide⟩, fun h => ?_, (sz.2.2 _ _).2 ⟨hp, pWW, by decide⟩⟩
    exact absurd ((su.2.2 _ _).1 h).2.2 (by decide)
  · refine ⟨[pW], [pW], inside_demo (by decide), (sy.2.2 _ _).2 ⟨pWW, pWW, by decide⟩, fun h => ?_, fun h => ?_⟩
    · exact absurd ((su.2.2 _ _).1 h).2.2 (by decide)
    · exact absurd ((sz.2.2 _ _).1 h).2.2 (by decide)

/-- **C90**, the order of the rules matters although it is said that the narrower rule wins: with `x:y <= _ ; x:u <= b a _ ; x:z <= a _ ;` a conflict is
reported that cannot be resolved, and no word with `x` after `.#. a` is accepted; if the last two rules are exchanged, all conflicts are resolved and
`x:z` is accepted there. -/
theorem C90_order_violated :
    (.unresolvable ∈ (readRules demoOptions [ruleY, ruleU, ruleZ]).out ∧
      ∀ q, (sX, q) ∈ demoPairs → ¬ AcceptedByAll (readRules demoOptions [ruleY, ruleU, ruleZ]).stored (demoWord q)) ∧
    .unresolvable ∉ (readRules demoOptions [ruleY, ruleZ, ruleU]).out ∧
      AcceptedByAll (readRules demoOptions [ruleY, ruleZ, ruleU]).stored (demoWord sZ) := by
  obtain ⟨h, m, e1, e2, e3, e4, e5⟩ := demo_three
  refine ⟨⟨e2, fun q hq hacc => ?_⟩, demo_specific.1, (demo_specific.2 sZ (by decide)).2 rfl⟩
  have hg : ∀ s ∈ [ruleY, ruleU, ruleZ], s.Good := by
    intro s hs
    refine good_all s ?_
    simp only [List.mem_cons, List.not_mem_nil, or_false] at hs ⊢
    rcases hs with h | h | h
    · exact Or.inl h
    · exact Or.inr (Or.inr h)
    · exact Or.inr (Or.inl h)
  rw [accepted_says demoRight (inv_rules demoRight demo_boundary demoOptions hg) (demoWord_pairs hq), e1] at hacc
  have pWW : Pairs demoLib [pW] := pairs_cons valid_W pairs_nil
  have hp : Pairs demoLib [pW, pA] := pairs_cons valid_W (pairs_cons valid_A pairs_nil)
  have sy := demoElem_spec (out := sY) (left := []) (by decide) pairs_nil
  have su := demoElem_spec (out := sU) (left := [pB, pA]) (by decide) (pairs_cons valid_B (pairs_cons valid_A pairs_nil))
  have sz := demoElem_spec (out := sZ) (left := [pA]) (by decide) (pairs_cons valid_A pairs_nil)
  have hnu : ¬ (demoElem sU [pB, pA]).P [pW, pA] [pW] := fun h => absurd ((su.2.2 _ _).1 h).2.2 (by decide)
  have k1 := hacc _ (List.mem_append_left _ (List.mem_of_getElem? e3)) rfl [pW, pA] (one (sX, q)) [pW] rfl
    (((sy.1.restrict demoRight su.1).2 _ _).2 ⟨(sy.2.2 _ _).2 ⟨hp, pWW, by decide⟩, hnu⟩) ⟨one (sX, sY), (sy.2.1 _).2 rfl, .pair .nil⟩
  have hq1 : (sX, q) = (sX, sY) := one_inj ((sy.2.1 _).1 k1)
  have hz : (demoElem sZ [pA]).P [pW, pA] [pW] := (sz.2.2 _ _).2 ⟨hp, pWW, by decide⟩
  have hm : m.P [pW, pA] [pW] := by
    by_contra hn
    exact hnu (e5 _ _ hz hn)
  have hC : ∀ v, m.C v ↔ v = one (sX, sZ) := by
    intro v
    rw [← sz.2.1 v]
    unfold Rule.C
    rw [e4.2.2.2.2.1]
  have k2 := hacc m (List.mem_append_right _ (List.mem_singleton.2 rfl)) (by rw [e4.2.2.1]; rfl) [pW, pA] (one (sX, q)) [pW] rfl
  rw [e4.2.1] at k2
  have hq2 : (sX, q) = (sX, sZ) := one_inj ((hC _).1 (k2 hm ⟨one (sX, sZ), (hC _).2 rfl, .pair .nil⟩))
  rw [hq1] at hq2
  exact absurd (congrArg Prod.snd hq2) (by decide)

/-- **C90**, a conflict is reported between rules that demand the same pair: `x:y <= _ ;` and `x:y <= a _ ;` are said to be in conflict, although they
agree, and although the documentation says that rules are in conflict only if their outputs differ. -/
theorem C90_same_pair_violated :
    (∃ a b, .leftConflict a b ∈ (readRules demoOptions [demoRule sY [], demoRule sY [pA]]).out) ∧
    ∀ p q, (demoRule sY []).Forces p → (demoRule sY [pA]).Forces q → p = q := by
  refine ⟨⟨"rule".toList, "rule".toList, ?_⟩, ?_⟩
  · have pWW : Pairs demoLib [pW] := pairs_cons valid_W pairs_nil
    have hp : Pairs demoLib [pW, pA] := pairs_cons valid_W (pairs_cons valid_A pairs_nil)
    have sy := demoElem_spec (out := sY) (left := []) (by decide) pairs_nil
    have sz := demoElem_spec (out := sY) (left := [pA]) (by decide) (pairs_cons valid_A pairs_nil)
    have e : readRules demoOptions [demoRule sY [], demoRule sY [pA]] =
        ((Grammar.init demoLib).addLeft demoOptions (demoElem sY [])).addLeft demoOptions (demoElem sY [pA]) := by
      unfold readRules
      simp only [List.foldl_cons, List.foldl_nil, demo_read]
    rw [e]
    have a1 : ((Grammar.init demoLib).addLeft demoOptions (demoElem sY [])).heap = [demoElem sY []] := rfl
    have a2 : ((Grammar.init demoLib).addLeft demoOptions (demoElem sY [])).out = [] := rfl
    have a3 : (mapGet ((Grammar.init demoLib).addLeft demoOptions (demoElem sY [])).lefts (demoElem sY [pA]).centerPair.1).getD [] = [0] := rfl
    generalize (Grammar.init demoLib).addLeft demoOptions (demoElem sY []) = g at a1 a2 a3
    rw [(addLeft_fields demoOptions g (demoElem sY [pA])).2.1, a1, a2, a3, List.foldl_cons, List.foldl_nil]
    have hcon : (demoElem sY []).conflicts demoLib (demoElem sY [pA]) = true := by
      rw [conflicts_iff demoRight demo_boundary sy.1 sz.1]
      exact ⟨[pW, pA], [pW], inside_demo (by decide), (sy.2.2 _ _).2 ⟨hp, pWW, by decide⟩, (sz.2.2 _ _).2 ⟨hp, pWW, by decide⟩⟩
    have hres : (demoElem sY []).resolvable demoLib (demoElem sY [pA]) = true := by
      rw [resolvable_iff demoRight demo_boundary sy.1 sz.1]
      intro l r _ h
      obtain ⟨x, y, _⟩ := (sz.2.2 l r).1 h
      exact (sy.2.2 l r).2 ⟨x, y, List.nil_suffix⟩
    unfold leftStep
    simp only [List.getElem?_cons_zero]
    rw [if_pos hcon, if_pos (show demoOptions.resolveLeft = true from rfl), if_pos hres]
    exact List.mem_cons_self ..
  · rintro p q ⟨_, ps, h, hp⟩ ⟨_, qs, k, hq⟩
    cases h
    cases k
    rw [List.mem_singleton.1 hp, List.mem_singleton.1 hq]

/-- The example meets the hypotheses of `C90_grammar_partial` and of `C90_resolved_partial`. -/
example : demoLib.Right ∧ demoLib.declared boundarySym boundarySym ∧ (∀ s ∈ [ruleY, ruleZ, ruleU], s.Good) ∧
    (∀ s ∈ [ruleY, ruleZ, ruleU], ∀ p, s.Forces p → p.1 ≠ zeroSym ∧ p.1 ≠ boundarySym) ∧
    .unresolvable ∉ (readRules demoOptions [ruleY, ruleZ, ruleU]).out ∧ Pairs demoLib (demoWord sZ) ∧ IsWord (demoWord sZ) :=
  ⟨demoRight, demo_boundary, good_all, forces_all, demo_specific.1, demoWord_pairs (by decide), demoWord_word⟩

/-- Without resolution the rules of the example contradict each other: nothing is accepted where two of them are about a place. -/
example (q : Sym) (hq : (sX, q) ∈ demoPairs) : ¬ AcceptedByAll (readRules ⟨true, false, true, true⟩ [ruleY, ruleZ, ruleU]).stored (demoWord q) := by
  rw [C90_grammar_partial demoRight demo_boundary _ rfl good_all (demoWord_pairs hq)]
  rintro ⟨_, h, _⟩
  have h1 := h ruleY (by simp) (sX, sY) ⟨Or.inl rfl, _, rfl, List.mem_singleton.2 rfl⟩ [pW, pA] (one (sX, q)) [pW] rfl
    ((demo_applies _ _ _ _).2 (by decide)) (.pair .nil)
  have h2 := h ruleZ (by simp) (sX, sZ) ⟨Or.inl rfl, _, rfl, List.mem_singleton.2 rfl⟩ [pW, pA] (one (sX, q)) [pW] rfl
    ((demo_applies _ _ _ _).2 (by decide)) (.pair .nil)
  rw [h1] at h2
  exact absurd (congrArg Prod.snd (one_inj h2)) (by decide)

end Hfst.TwolcRule
