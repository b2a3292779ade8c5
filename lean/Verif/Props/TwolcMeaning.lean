import Verif.Lemmas.TwolcLast
import Mathlib.Data.List.Forall2

/-!
# C90: what the rules of a two-level grammar mean together
-/
namespace Hfst.TwolcRule
open Hfst.Basic (Sym mapGet)

variable {L : Lib}

theorem fresh_elems (R : L.Right) {rs : List (Source L)} (hg : ∀ s ∈ rs, s.Good) : ∀ e ∈ rs.flatMap Source.elems, Fresh e := by
  intro e he
  obtain ⟨s, hs, he⟩ := List.mem_flatMap.1 he
  exact (elems_from R (hg s hs) e he).1

/-- **C90** (partial: the libraries that compute with transducers, the alphabet and the expressions of the grammar are taken as given, and their operations
are assumed to be right).  The transducers that are stored for a grammar, if conflicts of `<=` rules are not resolved, accept together exactly the pair
strings that obey the rules: where the grammar restricts a pair by `=>` or `<=>`, the pair stands only where one of the rules that restrict it is about
the place (if conflicts of `=>` rules are not resolved, where all of them are); where a `<=` or `<=>` rule is about a place, its center has its output
there; where a `/<=` rule is about a place, its center does not stand there; and each rule whose center is an expression holds. -/
theorem C90_grammar_partial (R : L.Right) (hb : L.declared boundarySym boundarySym) (o : Options) (hl : o.resolveLeft = false)
    {rs : List (Source L)} (hg : ∀ s ∈ rs, s.Good) {w : List Letter} (hw : Pairs L w) :
    AcceptedByAll (readRules o rs).stored w ↔
      (if o.resolveRight then RightObeyed rs w else RightObeyedEach rs w) ∧ LeftObeyed rs w ∧ OtherObeyed rs w := by
  have hi := inv_rules R hb o hg
  rw [accepted_says R hi hw, saysAll_iff hi (fresh_elems R hg), static_iff R o hg hw, right_iff R hg hw, hl]
  cases o.resolveRight <;> simp

theorem word_place {w l r : List Letter} {a q : Sym} (hw : IsWord w) (e : w = l ++ one (a, q) ++ r) (ha : a ≠ boundarySym) : Inside l r := by
  obtain ⟨v, rfl, hv⟩ := hw
  unfold one at e
  cases l with
  | nil =>
    simp only [List.cons_append, List.nil_append, List.cons.injEq, Letter.pair.injEq] at e
    exact absurd e.1.1.symm ha
  | cons b l' =>
    simp only [List.cons_append, List.nil_append, List.cons.injEq] at e
    obtain ⟨rfl, e⟩ := e
    cases hrr : r.reverse with
    | nil =>
      have : r = [] := by simpa using hrr
      subst this
      have e' := congrArg List.reverse e
      simp only [List.reverse_append, List.reverse_cons, List.reverse_nil, List.nil_append, List.cons_append, List.append_nil, List.cons.injEq,
        Letter.pair.injEq] at e'
      exact absurd e'.1.1.symm ha
    | cons c r' =>
      have : r = r'.reverse ++ [c] := by rw [← List.reverse_reverse r, hrr, List.reverse_cons]
      subst this
      have e' : v ++ [.pair boundarySym boundarySym] = (l' ++ .pair a q :: r'.reverse) ++ [c] := by simpa using e
      obtain ⟨e1, e2⟩ := List.append_inj' e' rfl
      simp only [List.cons.injEq, and_true] at e2
      subst e2
      refine ⟨l', r'.reverse, rfl, rfl, fun h => hv ?_, fun h => hv ?_⟩
      · rw [e1]
        exact List.mem_append_left _ h
      · rw [e1]
        exact List.mem_append_right _ (List.mem_cons_of_mem _ h)

theorem sameInputs_one {p : Sym × Sym} {m : List Letter} (h : SameInputs (one p) m) (hp : p.1 ≠ zeroSym) : ∃ q, m = one (p.1, q) := by
  obtain ⟨a, b⟩ := p
  unfold one at h
  dsimp only at h hp
  cases h with
  | pair h => cases h; exact ⟨_, rfl⟩
  | drop => exact absurd rfl hp

theorem forces_of_elem (R : L.Right) {rs : List (Source L)} (hg : ∀ s ∈ rs, s.Good) {e : How × Rule L} (he : e ∈ rs.flatMap Source.elems) (h : e.1 = .left) :
    ∃ s ∈ rs, s.Forces e.2.centerPair ∧ ∀ l r, e.2.P l r ↔ (Pairs L l ∧ Pairs L r ∧ s.Applies l r) := by
  obtain ⟨s, hs, he⟩ := List.mem_flatMap.1 he
  obtain ⟨_, b, c⟩ := elems_from R (hg s hs) e he
  refine ⟨s, hs, ?_, b⟩
  rcases c with c | c | c | c
  · rw [h] at c; cases c.1
  · exact c.2
  · rw [h] at c; cases c.1
  · rw [h] at c; cases c.1

/-- **C90**, if conflicts of `<=` rules are resolved and reported and none is reported as unresolvable: at each place inside of a word and for each input
symbol, exactly one of the rules that are about the place and demand a pair with the input symbol governs, and the words that are accepted are those
that do what the governing rules and all other rules say. -/
theorem C90_resolved_partial (R : L.Right) (hb : L.declared boundarySym boundarySym) (o : Options) (hl : o.resolveLeft = true) (hrep : o.reportLeft = true)
    {rs : List (Source L)} (hg : ∀ s ∈ rs, s.Good) (hin : ∀ s ∈ rs, ∀ p, s.Forces p → p.1 ≠ zeroSym ∧ p.1 ≠ boundarySym)
    (hm : .unresolvable ∉ (readRules o rs).out) :
    ∃ gov : Sym → List Letter → List Letter → Option (Sym × Sym),
      (∀ a l r p, gov a l r = some p → p.1 = a ∧ ∃ s ∈ rs, s.Forces p ∧ s.Applies l r) ∧
      (∀ l r, Pairs L l → Pairs L r → ∀ s ∈ rs, ∀ p, s.Forces p → s.Applies l r → ∃ q, gov p.1 l r = some q) ∧
      ∀ w, Pairs L w → IsWord w → (AcceptedByAll (readRules o rs).stored w ↔
        (if o.resolveRight then RightObeyed rs w else RightObeyedEach rs w) ∧ OtherObeyed rs w ∧
        ∀ l a q r, w = l ++ one (a, q) ++ r → ∀ p, gov a l r = some p → (a, q) = p) := by
  classical
  have hi := inv_rules R hb o hg
  generalize readRules o rs = g at hi hm
  let some? (a : Sym) (l r : List Letter) (x : Rule L) : Prop := ∃ ks, mapGet g.lefts a = some ks ∧ ∃ k ∈ ks, g.heap[k]? = some x ∧ x.P l r
  have hgov : ∃ gov : Sym → List Letter → List Letter → Option (Sym × Sym), (∀ a l r p, gov a l r = some p → ∃ x, some? a l r x ∧ p = x.centerPair) ∧
      ∀ a l r, (∃ x, some? a l r x) → ∃ q, gov a l r = some q := by
    refine ⟨fun a l r => if h : ∃ x, some? a l r x then some h.choose.centerPair else none, ?_, ?_⟩
    · intro a l r p hp
      dsimp only at hp
      split at hp
      · rename_i h
        exact ⟨h.choose, h.choose_spec, (Option.some.inj hp).symm⟩
      · cases hp
    · intro a l r h
      dsimp only
      rw [dif_pos h]
      exact ⟨_, rfl⟩
  obtain ⟨gov, g1, g2⟩ := hgov
  refine ⟨gov, ?_, ?_, ?_⟩
  · intro a l r p hp
    obtain ⟨x, ⟨ks, h1, k, h2, h3, h4⟩, rfl⟩ := g1 a l r p hp
    obtain ⟨x', a1, _, _, _, a5, e, a6, a7, a8, a9⟩ := hi.lSome hl a ks h1 k h2
    rw [h3] at a1
    cases a1
    obtain ⟨s, hs, b1, b2⟩ := forces_of_elem R hg a6 a7
    exact ⟨a5, s, hs, a8 ▸ b1, ((b2 l r).1 (a9 l r h4)).2.2⟩
  · intro l r hpl hpr s hs p hf ha
    obtain ⟨e, he, h1, h2⟩ := elems_forces hf
    obtain ⟨_, b, _⟩ := elems_from R (hg s hs) e he
    obtain ⟨ks, c1, k, c2, x, c3, c4⟩ := hi.lAll hl e (List.mem_flatMap.2 ⟨s, hs, he⟩) h1 l r ((b l r).2 ⟨hpl, hpr, ha⟩)
    rw [h2] at c1
    exact g2 _ l r ⟨x, ks, c1, k, c2, c3, c4⟩
  · intro w hw hword
    rw [accepted_says R hi hw, saysAll_iff hi (fresh_elems R hg), static_iff R o hg hw, right_iff R hg hw]
    have key : (∀ a ks, mapGet g.lefts a = some ks → ∀ k ∈ ks, ∀ x, g.heap[k]? = some x → Says .left (· = one x.centerPair) x.P w) ↔
        ∀ l a q r, w = l ++ one (a, q) ++ r → ∀ p, gov a l r = some p → (a, q) = p := by
      constructor
      · intro h l a q r e p hp
        obtain ⟨x, ⟨ks, h1, k, h2, h3, h4⟩, rfl⟩ := g1 a l r p hp
        obtain ⟨x', a1, _, _, _, a5, _⟩ := hi.lSome hl a ks h1 k h2
        rw [h3] at a1
        cases a1
        refine one_inj (h a ks h1 k h2 x h3 l _ r e h4 ⟨_, rfl, ?_⟩)
        unfold one
        rw [a5]
        exact .pair .nil
      · rintro h a ks ha k hk x hx l m r e hp ⟨v, rfl, hv⟩
        obtain ⟨x', a1, _, _, _, a5, e', a6, a7, a8, _⟩ := hi.lSome hl a ks ha k hk
        rw [hx] at a1
        cases a1
        obtain ⟨s, hs, b1, _⟩ := forces_of_elem R hg a6 a7
        rw [a8] at b1
        obtain ⟨n1, n2⟩ := hin s hs _ b1
        obtain ⟨q, rfl⟩ := sameInputs_one hv n1
        have hins := word_place hword e n2
        rw [a5] at e ⊢
        obtain ⟨p, hgp⟩ := g2 a l r ⟨x, ks, ha, k, hk, hx, hp⟩
        obtain ⟨y, ⟨js, d1, j, d2, d3, d4⟩, rfl⟩ := g1 a l r p hgp
        rw [ha] at d1
        cases d1
        have hkj : k = j := by
          by_contra hne
          exact hi.lOne hl hrep hm a ks ha k hk j d2 hne x y hx d3 l r hins hp d4
        subst hkj
        rw [hx] at d3
        cases d3
        rw [h l a q r e _ hgp]
    rw [hl]
    simp only [forall_const, key]
    cases o.resolveRight
    · simp only [reduceCtorEq, false_implies, true_and, forall_const, Bool.false_eq_true, ↓reduceIte]
      exact ⟨fun h => ⟨h.2.1, h.2.2, h.1⟩, fun h => ⟨h.2.2, h.1, h.2.1⟩⟩
    · simp only [reduceCtorEq, false_implies, true_and, forall_const, ↓reduceIte]
      exact ⟨fun h => ⟨h.1, h.2.2, h.2.1⟩, fun h => ⟨h.1, h.2.2, h.2.1⟩⟩

theorem demands_pair_pos {name : Sym} {p : Sym × Sym} {op : Op} {c : L.T} {a : Sym} (h : op = .left ∨ op = .leftRight) (ha : p.1 = a) :
    demands (pairElems name p op c) a = [Rule.make L .left name p (getCenterPair L p) [c]] := by
  rcases h with rfl | rfl <;> simp [demands, pairElems, Rule.make, ha]

theorem demands_pair_neg {name : Sym} {p : Sym × Sym} {op : Op} {c : L.T} {a : Sym} (h : ¬ ((op = .left ∨ op = .leftRight) ∧ p.1 = a)) :
    demands (pairElems name p op c) a = [] := by
  cases op <;> simp [demands, pairElems, Rule.make] <;> intro ha <;> exact h ⟨by simp, ha⟩

/-- The demands of a text with the rules that are made for them. -/
theorem demands_forced (R : L.Right) : ∀ {rs : List (Source L)}, (∀ s ∈ rs, s.Good) → ∀ a,
    List.Forall₂ (fun (x : Rule L) (t : Source L × (Sym × Sym)) => x.centerPair = t.2 ∧ ∀ l r, x.P l r ↔ (Pairs L l ∧ Pairs L r ∧ t.1.Applies l r))
      (demands (rs.flatMap Source.elems) a) ((forced rs).filter fun t => decide (t.2.1 = a)) := by
  have app : ∀ (A B : List (How × Rule L)) a, demands (A ++ B) a = demands A a ++ demands B a := by
    intro A B a
    unfold demands
    rw [List.filter_append, List.map_append]
  intro rs
  induction rs with
  | nil => intro _ a; exact .nil
  | cons s rs ih =>
    intro hg a
    unfold forced
    rw [List.flatMap_cons, List.flatMap_cons, app, List.filter_append]
    refine List.rel_append ?_ (ih (fun t ht => hg t (List.mem_cons_of_mem _ ht)) a)
    have hgs := hg s (List.mem_cons_self ..)
    unfold Source.elems
    cases hc : s.center with
    | re c =>
      dsimp only
      have : (if s.op = .left ∨ s.op = .leftRight then ([] : List (Source L × (Sym × Sym))) else []) = [] := by split <;> rfl
      rw [this]
      unfold reElems
      cases s.op <;> exact .nil
    | pairs ps =>
      dsimp only
      have hps := hgs.1 ps hc
      generalize nameFor s.name ps = nm
      clear hc
      induction ps with
      | nil =>
        rw [List.flatMap_nil, List.map_nil]
        split <;> exact .nil
      | cons p ps ih2 =>
        have h2 := ih2 fun q hq => hps q (List.mem_cons_of_mem _ hq)
        rw [List.flatMap_cons, app, List.map_cons]
        have mk := fun k => make_wf R hgs k (nm p) p (cen_pair R (hps p (List.mem_cons_self ..)))
        by_cases hop : s.op = .left ∨ s.op = .leftRight
        · rw [if_pos hop] at h2 ⊢
          by_cases ha : p.1 = a
          · rw [demands_pair_pos hop ha, List.filter_cons_of_pos (by simpa using ha)]
            exact .cons ⟨rfl, (mk _).2.2⟩ h2
          · rw [demands_pair_neg (fun e => ha e.2), List.filter_cons_of_neg (by simpa using ha)]
            exact h2
        · rw [if_neg hop] at h2 ⊢
          rw [demands_pair_neg (fun e => hop e.1)]
          exact h2

theorem Pairwise_forall₂ {α β : Type} {S : α → β → Prop} {P : α → α → Prop} {Q : β → β → Prop} (h : ∀ a b c d, S a c → S b d → Q c d → P a b) :
    ∀ {l : List α} {m : List β}, List.Forall₂ S l m → m.Pairwise Q → l.Pairwise P := by
  intro l m hf
  induction hf with
  | nil => intro _; exact .nil
  | @cons a c l m hs hf ih =>
    intro hp
    rw [List.pairwise_cons] at hp ⊢
    refine ⟨fun b hb => ?_, ih hp.2⟩
    obtain ⟨d, hd, hbd⟩ : ∃ d ∈ m, S b d := by
      clear ih hp
      induction hf with
      | nil => cases hb
      | cons hs' _ ih' =>
        rcases List.mem_cons.1 hb with rfl | hb
        · exact ⟨_, List.mem_cons_self .., hs'⟩
        · obtain ⟨d, hd, h⟩ := ih' hb
          exact ⟨d, List.mem_cons_of_mem _ hd, h⟩
    exact h a b c d hs hbd (hp.1 d hd)

/-- What a chain says about a place. -/
theorem chain_says {h : List (Rule L)} {l r : List Letter} (hin : Inside l r) (hpl : Pairs L l) (hpr : Pairs L r) (m : List Letter) :
    ∀ {ks : List Nat} {es : List (Rule L)} {ts : List (Source L × (Sym × Sym))}, Chain h (fun _ _ => False) ks es →
      List.Forall₂ (fun (x : Rule L) (t : Source L × (Sym × Sym)) => x.centerPair = t.2 ∧ ∀ l r, x.P l r ↔ (Pairs L l ∧ Pairs L r ∧ t.1.Applies l r)) es ts →
      ((∀ k ∈ ks, ∀ x, h[k]? = some x → x.P l r → m = one x.centerPair) ↔
        ∀ before t after, ts = before ++ t :: after → t.1.Applies l r → (∀ u ∈ after, ¬ u.1.Applies l r) → m = one t.2)
  | [], [], _, _, .nil => by
    constructor
    · intro _ before t after e
      cases before <;> cases e
    · intro _ k hk
      cases hk
  | k :: ks, e :: es, _, ⟨⟨x, hx, _, hxc, hxp⟩, hch⟩, .cons (l₂ := ts) (b := t) ⟨he, hep⟩ hf => by
    have ih := chain_says hin hpl hpr m hch hf
    have hlater : (∀ e' ∈ es, ¬ e'.P l r) ↔ ∀ u ∈ ts, ¬ u.1.Applies l r := by
      clear ih hch hxp
      induction hf with
      | nil => simp
      | cons h1 _ ih' =>
        rw [List.forall_mem_cons, List.forall_mem_cons, ih', h1.2]
        simp only [hpl, hpr, true_and]
    constructor
    · intro h1 before t' after e' ha hn
      cases before with
      | nil =>
        rw [List.nil_append] at e'
        cases e'
        have := h1 k (List.mem_cons_self ..) x hx ((hxp l r hin).2 ⟨(hep l r).2 ⟨hpl, hpr, ha⟩, hlater.2 hn, id⟩)
        rw [this, hxc, he]
      | cons b before =>
        rw [List.cons_append] at e'
        cases e'
        exact ih.1 (fun j hj => h1 j (List.mem_cons_of_mem _ hj)) before t' after rfl ha hn
    · intro h1 j hj y hy hp
      rcases List.mem_cons.1 hj with rfl | hj
      · rw [hx] at hy
        cases hy
        obtain ⟨q1, q2, _⟩ := (hxp l r hin).1 hp
        rw [hxc, he]
        exact h1 [] t ts rfl ((hep l r).1 q1).2.2 (hlater.1 q2)
      · refine ih.2 (fun before t' after e' => ?_) j hj y hy hp
        exact h1 (t :: before) t' after (by rw [e']; rfl)
  | [], _ :: _, _, h, _ => h.elim
  | _ :: _, [], _, h, _ => h.elim

theorem mem_forced {rs : List (Source L)} {t : Source L × (Sym × Sym)} (h : t ∈ forced rs) : t.1 ∈ rs ∧ t.1.Forces t.2 := by
  unfold forced at h
  obtain ⟨s, hs, h⟩ := List.mem_flatMap.1 h
  split at h
  · rename_i hop
    split at h
    · rename_i ps hc
      obtain ⟨p, hp, rfl⟩ := List.mem_map.1 h
      exact ⟨hs, hop, ps, hc, hp⟩
    · cases h
  · cases h

theorem filter_split {α : Type} {f : α → Bool} : ∀ {l : List α} {b : List α} {t : α} {a : List α}, l.filter f = b ++ t :: a →
    ∃ b' a', l = b' ++ t :: a' ∧ a'.filter f = a ∧ f t = true
  | [], b, t, a, h => by cases b <;> cases h
  | x :: l, b, t, a, h => by
    by_cases hx : f x = true
    · rw [List.filter_cons_of_pos hx] at h
      cases b with
      | nil =>
        cases h
        exact ⟨[], l, rfl, rfl, hx⟩
      | cons y b =>
        rw [List.cons_append] at h
        obtain ⟨b', a', h1, h2, h3⟩ := filter_split (List.cons.inj h).2
        exact ⟨x :: b', a', by rw [h1]; rfl, h2, h3⟩
    · rw [List.filter_cons_of_neg hx] at h
      obtain ⟨b', a', h1, h2, h3⟩ := filter_split h
      exact ⟨x :: b', a', by rw [h1]; rfl, h2, h3⟩

/-- **C90**, the specific rule wins if it comes later: if, of any two `<=` demands for the same input symbol, the later one is apart from the earlier one or
narrower, then all conflicts are resolved, and the words that are accepted are those that obey the other rules and in which each input symbol has the
output that the last demand says that is about its place. -/
theorem C90_specific_partial (R : L.Right) (hb : L.declared boundarySym boundarySym) (o : Options) (hl : o.resolveLeft = true)
    {rs : List (Source L)} (hg : ∀ s ∈ rs, s.Good) (hin : ∀ s ∈ rs, ∀ p, s.Forces p → p.1 ≠ zeroSym ∧ p.1 ≠ boundarySym)
    (hsp : (forced rs).Pairwise fun t u => t.2.1 = u.2.1 → ApartOrNarrower t.1 u.1) :
    .unresolvable ∉ (readRules o rs).out ∧
    ∀ w, Pairs L w → IsWord w → (AcceptedByAll (readRules o rs).stored w ↔
      (if o.resolveRight then RightObeyed rs w else RightObeyedEach rs w) ∧ OtherObeyed rs w ∧
      ∀ l a q r, w = l ++ one (a, q) ++ r → ∀ before s p after, forced rs = before ++ (s, p) :: after → p.1 = a → s.Applies l r →
        (∀ t ∈ after, t.2.1 = a → ¬ t.1.Applies l r) → q = p.2) := by
  have hi := inv_rules R hb o hg
  have hpw : ∀ a, (demands (rs.flatMap Source.elems) a).Pairwise Sp := by
    intro a
    refine Pairwise_forall₂ ?_ (demands_forced R hg a) (List.Pairwise.and_mem.1 (hsp.sublist List.filter_sublist))
    rintro x y t u ⟨_, h2⟩ ⟨_, h4⟩ ⟨ht, hu, h5⟩
    have e1 := (List.mem_filter.1 ht).2
    have e2 := (List.mem_filter.1 hu).2
    simp only [decide_eq_true_eq] at e1 e2
    rcases h5 (e1.trans e2.symm) with h6 | h6
    · refine Or.inl fun l r hins p q => ?_
      obtain ⟨p1, p2, p3⟩ := (h2 l r).1 p
      exact h6 l r p1 p2 hins p3 ((h4 l r).1 q).2.2
    · refine Or.inr fun l r hins q => ?_
      obtain ⟨p1, p2, p3⟩ := (h4 l r).1 q
      exact (h2 l r).2 ⟨p1, p2, h6 l r p1 p2 hins p3⟩
  have hlast : Lasts (readRules o rs) (rs.flatMap Source.elems) := by
    rw [readRules_eq]
    have := lasts_elems R hb hl (rs.flatMap Source.elems) [] _ (inv_init o) lasts_init (fresh_elems R hg) (by simpa using hpw)
    simpa using this
  refine ⟨hlast.1, fun w hw hword => ?_⟩
  rw [accepted_says R hi hw, saysAll_iff hi (fresh_elems R hg), static_iff R o hg hw, right_iff R hg hw]
  have key : (∀ a ks, mapGet (readRules o rs).lefts a = some ks → ∀ k ∈ ks, ∀ x, (readRules o rs).heap[k]? = some x →
        Says .left (· = one x.centerPair) x.P w) ↔
      ∀ l a q r, w = l ++ one (a, q) ++ r → ∀ before s p after, forced rs = before ++ (s, p) :: after → p.1 = a → s.Applies l r →
        (∀ t ∈ after, t.2.1 = a → ¬ t.1.Applies l r) → q = p.2 := by
    generalize readRules o rs = g at hi hlast
    constructor
    · intro h l a q r e before s p after hf hpa ha hno
      obtain ⟨hpl, _, hpr⟩ := pairs_split hw e
      have hpb : p.1 ≠ boundarySym := by
        obtain ⟨m1, m2⟩ := mem_forced (rs := rs) (t := (s, p)) (by rw [hf]; exact List.mem_append_right _ (List.mem_cons_self ..))
        exact (hin s m1 p m2).2
      have hins := word_place hword e (hpa ▸ hpb)
      have hch := (hlast.2 a).2
      have := (chain_says hins hpl hpr (one (a, q)) hch (demands_forced R hg a)).1 ?_ (before.filter fun t => decide (t.2.1 = a)) (s, p)
        (after.filter fun t => decide (t.2.1 = a)) ?_ ha ?_
      · have := one_inj this
        exact congrArg Prod.snd this
      · intro k hk x hx hp
        cases hks : mapGet g.lefts a with
        | none => rw [hks] at hk; cases hk
        | some ks =>
          rw [hks] at hk
          obtain ⟨x', a1, _, _, _, a5, _⟩ := hi.lSome hl a ks hks k hk
          rw [hx] at a1
          cases a1
          refine h a ks hks k hk x hx l _ r e hp ⟨_, rfl, ?_⟩
          unfold one
          rw [a5]
          exact .pair .nil
      · rw [hf, List.filter_append, List.filter_cons_of_pos (by simpa using hpa)]
      · intro u hu
        obtain ⟨u1, u2⟩ := List.mem_filter.1 hu
        exact hno u u1 (by simpa using u2)
    · rintro h a ks ha k hk x hx l m r e hp ⟨v, rfl, hv⟩
      obtain ⟨x', a1, _, _, _, a5, e', a6, a7, a8, _⟩ := hi.lSome hl a ks ha k hk
      rw [hx] at a1
      cases a1
      obtain ⟨s, hs, b1, _⟩ := forces_of_elem R hg a6 a7
      rw [a8] at b1
      obtain ⟨n1, n2⟩ := hin s hs _ b1
      obtain ⟨q, rfl⟩ := sameInputs_one hv n1
      have hins := word_place hword e n2
      obtain ⟨hpl, _, hpr⟩ := pairs_split hw e
      have hch := (hlast.2 a).2
      rw [ha] at hch
      refine (chain_says hins hpl hpr _ hch (demands_forced R hg a)).2 ?_ k hk x hx hp
      rintro before ⟨t, p⟩ after hf hta hno
      obtain ⟨b', a', f1, f2, f3⟩ := filter_split hf
      simp only [decide_eq_true_eq] at f3
      dsimp only at hta f3 ⊢
      rw [a5] at e ⊢
      have := h l a q r e b' t p a' f1 f3 hta fun u hu hua => hno u (by rw [← f2]; exact List.mem_filter.2 ⟨hu, by simpa using hua⟩)
      rw [this, ← f3]
  rw [hl]
  simp only [forall_const, key]
  cases o.resolveRight
  · simp only [reduceCtorEq, false_implies, true_and, forall_const, Bool.false_eq_true, ↓reduceIte]
    exact ⟨fun h => ⟨h.2.1, h.2.2, h.1⟩, fun h => ⟨h.2.2, h.1, h.2.1⟩⟩
  · simp only [reduceCtorEq, false_implies, true_and, forall_const, ↓reduceIte]
    exact ⟨fun h => ⟨h.1, h.2.2, h.2.1⟩, fun h => ⟨h.1, h.2.2, h.2.1⟩⟩

end Hfst.TwolcRule
