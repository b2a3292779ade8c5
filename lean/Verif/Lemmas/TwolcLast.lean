import Verif.Lemmas.TwolcElems

/-!
# Lemmas about the rules of a two-level grammar: rules that become narrower
-/
namespace Hfst.TwolcRule
open Hfst.Basic (Sym mapGet mapPut setInsert)

variable {L : Lib}

/-- Inside of words, `y` is apart from `x` or narrower. -/
def Sp (x y : Rule L) : Prop := (∀ l r, Inside l r → x.P l r → ¬ y.P l r) ∨ ∀ l r, Inside l r → y.P l r → x.P l r

theorem leftStep_sp (R : L.Right) (hb : L.declared boundarySym boundarySym) {o : Options} (hres : o.resolveLeft = true) {h : List (Rule L)} {r x : Rule L}
    {out : List Message} {k : Nat} (hk : h[k]? = some x) (hx : x.Wf) (hr : r.Wf) (hsp : Sp x r) :
    ∃ x' m, leftStep o (h, r, out) k = (h.set k x', r, out ++ m) ∧ .unresolvable ∉ m ∧ x'.Wf ∧ x'.centerPair = x.centerPair ∧
      ∀ l r', Inside l r' → (x'.P l r' ↔ x.P l r' ∧ ¬ r.P l r') := by
  by_cases hc : x.conflicts L r = true
  · have h1 : x.resolvable L r = true := by
      rw [resolvable_iff R hb hx hr]
      rcases hsp with h | h
      · obtain ⟨l, r', a, b, c⟩ := (conflicts_iff R hb hx hr).1 hc
        exact absurd c (h l r' a b)
      · exact h
    refine ⟨x.restrict L r, if o.reportLeft then [.leftConflict x.name r.name, .restricting x.name] else [], ?_, ?_, (hx.restrict R hr).1, rfl,
      fun l r' _ => (hx.restrict R hr).2 l r'⟩
    · unfold leftStep
      dsimp only
      rw [hk]
      dsimp only
      rw [if_pos hc, if_pos hres, if_pos h1]
      cases o.reportLeft <;> simp
    · cases o.reportLeft <;> simp
  · refine ⟨x, [], ?_, by simp, hx, rfl, fun l r' hi => ⟨fun p => ⟨p, fun q => hc ((conflicts_iff R hb hx hr).2 ⟨l, r', hi, p, q⟩)⟩, And.left⟩⟩
    unfold leftStep
    dsimp only
    rw [hk]
    dsimp only
    rw [if_neg hc, List.append_nil]
    have : h.set k x = h := by
      have hlt := (List.getElem?_eq_some_iff.1 hk).1
      have he := (List.getElem?_eq_some_iff.1 hk).2
      rw [← he]
      exact List.set_getElem_self hlt
    rw [this]

/-- The rules in the positions are the given rules, each without the places of the later ones and without `Q`. -/
def Chain (h : List (Rule L)) (Q : List Letter → List Letter → Prop) : List Nat → List (Rule L) → Prop
  | [], [] => True
  | k :: ks, e :: es => (∃ x, h[k]? = some x ∧ x.Wf ∧ x.centerPair = e.centerPair ∧
      ∀ l r, Inside l r → (x.P l r ↔ e.P l r ∧ (∀ e' ∈ es, ¬ e'.P l r) ∧ ¬ Q l r)) ∧ Chain h Q ks es
  | _, _ => False

theorem Chain.congr {h h' : List (Rule L)} {Q} : ∀ {ks : List Nat} {es : List (Rule L)}, Chain h Q ks es → (∀ k ∈ ks, h'[k]? = h[k]?) → Chain h' Q ks es
  | [], [], _, _ => trivial
  | k :: ks, e :: es, ⟨⟨x, hx, h1⟩, h2⟩, he =>
    ⟨⟨x, by rw [he k (List.mem_cons_self ..)]; exact hx, h1⟩, h2.congr fun j hj => he j (List.mem_cons_of_mem _ hj)⟩
  | [], _ :: _, h, _ => h.elim
  | _ :: _, [], h, _ => h.elim

theorem chain_loop (R : L.Right) (hb : L.declared boundarySym boundarySym) {o : Options} (hres : o.resolveLeft = true) {r : Rule L} (hr : r.Wf) :
    ∀ (ks : List Nat) (es : List (Rule L)) (h : List (Rule L)) (out : List Message), ks.Nodup → Chain h (fun _ _ => False) ks es → (∀ e ∈ es, Sp e r) →
      ∃ h' m, ks.foldl (leftStep o) (h, r, out) = (h', r, out ++ m) ∧ .unresolvable ∉ m ∧ h'.length = h.length ∧ Chain h' r.P ks es ∧
        ∀ i, i ∉ ks → h'[i]? = h[i]?
  | [], [], h, out, _, _, _ => ⟨h, [], by simp, by simp, rfl, trivial, fun _ _ => rfl⟩
  | k :: ks, e :: es, h, out, hn, ⟨⟨x, hx, hxw, hxc, hxp⟩, hch⟩, hsp => by
    have hsx : Sp x r := by
      by_cases hd : ∃ e' ∈ es, ¬ (∀ l r', Inside l r' → e'.P l r' → ¬ r.P l r')
      · obtain ⟨e', he', hne⟩ := hd
        have := (hsp e' (List.mem_cons_of_mem _ he')).resolve_left hne
        exact Or.inl fun l r' hi p q => ((hxp l r' hi).1 p).2.1 e' he' (this l r' hi q)
      · rcases hsp e (List.mem_cons_self ..) with h1 | h1
        · exact Or.inl fun l r' hi p => h1 l r' hi ((hxp l r' hi).1 p).1
        · refine Or.inr fun l r' hi q => (hxp l r' hi).2 ⟨h1 l r' hi q, fun e' he' p => hd ⟨e', he', fun hall => hall l r' hi p q⟩, id⟩
    obtain ⟨x', m, e1, e2, e3, e4, e5⟩ := leftStep_sp R hb hres (out := out) hx hxw hr hsx
    rw [List.nodup_cons] at hn
    have hlt := get_lt hx
    obtain ⟨h', m', f1, f2, f3, f4, f5⟩ := chain_loop R hb hres hr ks es (h.set k x') (out ++ m) hn.2
      (hch.congr fun j hj => List.getElem?_set_ne (fun e : k = j => hn.1 (by rw [e]; exact hj))) fun e' he' => hsp e' (List.mem_cons_of_mem _ he')
    refine ⟨h', m ++ m', by rw [List.foldl_cons, e1, f1, List.append_assoc], ?_, by rw [f3, List.length_set], ⟨⟨x', ?_, e3, e4.trans hxc, ?_⟩, f4⟩, ?_⟩
    · rw [List.mem_append]
      exact fun h => h.elim e2 f2
    · rw [f5 k hn.1, List.getElem?_set_self hlt]
    · intro l r' hi
      rw [e5 l r' hi, hxp l r' hi]
      exact ⟨fun a => ⟨a.1.1, a.1.2.1, a.2⟩, fun a => ⟨⟨a.1, a.2.1, id⟩, a.2.2⟩⟩
    · intro i hi
      rw [List.mem_cons, not_or] at hi
      rw [f5 i hi.2, List.getElem?_set_ne fun e => hi.1 e.symm]
  | [], _ :: _, _, _, _, h, _ => h.elim
  | _ :: _, [], _, _, _, h, _ => h.elim

theorem chain_snoc {h : List (Rule L)} {r : Rule L} (hr : r.Wf) : ∀ {ks : List Nat} {es : List (Rule L)}, Chain h r.P ks es → (∀ k ∈ ks, k < h.length) →
    Chain (h ++ [r]) (fun _ _ => False) (ks ++ [h.length]) (es ++ [r])
  | [], [], _, _ => ⟨⟨r, get_append.2 (Or.inr ⟨rfl, rfl⟩), hr, rfl, fun l r' _ => by simp⟩, trivial⟩
  | k :: ks, e :: es, ⟨⟨x, hx, h1, h2, h3⟩, h4⟩, hl => by
    refine ⟨⟨x, get_append.2 (Or.inl hx), h1, h2, fun l r' hi => ?_⟩, chain_snoc hr h4 fun j hj => hl j (List.mem_cons_of_mem _ hj)⟩
    rw [h3 l r' hi]
    constructor
    · rintro ⟨a, b, c⟩
      refine ⟨a, fun e' he' => ?_, id⟩
      rcases mem_snoc.1 he' with h | rfl
      · exact b e' h
      · exact c
    · rintro ⟨a, b, _⟩
      exact ⟨a, fun e' he' => b e' (mem_snoc.2 (Or.inl he')), b r (mem_snoc.2 (Or.inr rfl))⟩
  | [], _ :: _, h, _ => h.elim
  | _ :: _, [], h, _ => h.elim

theorem Chain.le {h : List (Rule L)} {Q} : ∀ {ks : List Nat} {es : List (Rule L)}, Chain h Q ks es → ks = [] → es = []
  | [], [], _, _ => rfl
  | [], _ :: _, h, _ => h.elim

/-- The rules that demand a pair with the input symbol `a`. -/
def demands (E : List (How × Rule L)) (a : Sym) : List (Rule L) :=
  (E.filter fun e => decide (e.1 = .left ∧ e.2.centerPair.1 = a)).map Prod.snd

theorem demands_snoc (E : List (How × Rule L)) (e : How × Rule L) (a : Sym) :
    demands (E ++ [e]) a = demands E a ++ (if e.1 = .left ∧ e.2.centerPair.1 = a then [e.2] else []) := by
  unfold demands
  rw [List.filter_append, List.map_append]
  congr 1
  by_cases h : e.1 = .left ∧ e.2.centerPair.1 = a
  · rw [if_pos h, List.filter_cons_of_pos (by simpa using h)]
    rfl
  · rw [if_neg h, List.filter_cons_of_neg (by simpa using h)]
    rfl

/-- What holds as long as each new rule is apart from the older ones or narrower. -/
def Lasts (g : Grammar L) (E : List (How × Rule L)) : Prop :=
  .unresolvable ∉ g.out ∧ ∀ a, ((mapGet g.lefts a).getD []).Nodup ∧ Chain g.heap (fun _ _ => False) ((mapGet g.lefts a).getD []) (demands E a)

theorem getD_lt {o : Options} {g : Grammar L} {E : List (How × Rule L)} (h : Inv o g E) (a : Sym) : ∀ k ∈ (mapGet g.lefts a).getD [], k < g.heap.length := by
  intro k hk
  cases hl : mapGet g.lefts a with
  | none => rw [hl] at hk; cases hk
  | some ks => rw [hl] at hk; exact h.lLt a ks hl k hk

theorem lasts_other {o : Options} {g g' : Grammar L} {E : List (How × Rule L)} (h : Lasts g E) (hi : Inv o g E) {e : How × Rule L} (he : e.1 ≠ .left)
    (hl : g'.lefts = g.lefts) (ho : .unresolvable ∉ g.out → .unresolvable ∉ g'.out)
    (hh : ∀ a, ∀ k ∈ (mapGet g.lefts a).getD [], k < g.heap.length → g'.heap[k]? = g.heap[k]?) : Lasts g' (E ++ [e]) := by
  refine ⟨ho h.1, fun a => ?_⟩
  rw [hl, demands_snoc, if_neg (fun c => he c.1), List.append_nil]
  exact ⟨(h.2 a).1, (h.2 a).2.congr fun k hk => hh a k hk (getD_lt hi a k hk)⟩

theorem lasts_elem (R : L.Right) (hb : L.declared boundarySym boundarySym) {o : Options} (hres : o.resolveLeft = true) {g : Grammar L}
    {E : List (How × Rule L)} (h : Lasts g E) (hi : Inv o g E) {e : How × Rule L} (hf : Fresh e)
    (hsp : e.1 = .left → ∀ x ∈ demands E e.2.centerPair.1, Sp x e.2) : Lasts (addElem o g e) (E ++ [e]) := by
  unfold addElem
  cases he : e.1 with
  | right =>
    dsimp only
    unfold Grammar.addRight
    cases hj : mapGet g.rights e.2.centerPair with
    | none =>
      dsimp only
      refine lasts_other h hi (by rw [he]; decide) rfl id fun a k _ hk => ?_
      exact List.getElem?_append_left hk
    | some j =>
      dsimp only
      have hn : ∀ a, ∀ k ∈ (mapGet g.lefts a).getD [], j ≠ k := by
        intro a k hk
        cases hl : mapGet g.lefts a with
        | none => rw [hl] at hk; cases hk
        | some ks =>
          rw [hl] at hk
          rintro rfl
          exact hi.lrDis _ _ a ks hj hl hk
      have hout : .unresolvable ∉ g.out → .unresolvable ∉ (if o.reportRight = true then
          match g.heap[j]? with
          | some x => g.out ++ [Message.rightConflict x.name e.2.name]
          | none => g.out
        else g.out) := by
        intro hm
        split
        · split
          · rw [List.mem_append]
            rintro (h | h)
            · exact hm h
            · simp at h
          · exact hm
        · exact hm
      generalize (if o.reportRight = true then
          match g.heap[j]? with
          | some x => g.out ++ [Message.rightConflict x.name e.2.name]
          | none => g.out
        else g.out) = out at hout
      split
      · refine lasts_other h hi (by rw [he]; decide) rfl hout fun a k hk hlt => ?_
        dsimp only [Grammar.insertGroup]
        rw [List.getElem?_append_left (by rw [List.length_modify]; exact hlt), List.getElem?_modify]
        cases g.heap[k]? with
        | none => rfl
        | some y => exact congrArg some (if_neg (hn a k hk))
      · refine lasts_other h hi (by rw [he]; decide) rfl hout fun a k _ hk => ?_
        exact List.getElem?_append_left hk
  | other =>
    dsimp only
    exact lasts_other h hi (by rw [he]; decide) rfl id fun a k _ hk => List.getElem?_append_left hk
  | left =>
    dsimp only
    unfold Grammar.addLeft
    dsimp only
    have hlt := getD_lt hi e.2.centerPair.1
    obtain ⟨h', m, c1, c2, c3, c4, c5⟩ := chain_loop R hb hres hf.1 _ _ g.heap g.out (h.2 e.2.centerPair.1).1 (h.2 e.2.centerPair.1).2 (hsp he)
    rw [c1]
    refine ⟨?_, fun a => ?_⟩
    · dsimp only [Grammar.insertGroup]
      rw [List.mem_append]
      exact fun hm => hm.elim h.1 c2
    · dsimp only [Grammar.insertGroup]
      rw [get_put, demands_snoc]
      by_cases ha : a = e.2.centerPair.1
      · subst ha
        rw [if_pos rfl, if_pos ⟨he, rfl⟩, Option.getD_some, ← c3]
        refine ⟨?_, chain_snoc hf.1 c4 fun k hk => by rw [c3]; exact hlt k hk⟩
        rw [List.nodup_append]
        refine ⟨(h.2 _).1, by simp, ?_⟩
        intro k hk j hj
        have := hlt k hk
        rw [List.mem_singleton] at hj
        omega
      · rw [if_neg ha, if_neg (fun c => ha c.2.symm), List.append_nil]
        refine ⟨(h.2 a).1, (h.2 a).2.congr fun k hk => ?_⟩
        have hk' := getD_lt hi a k hk
        rw [List.getElem?_append_left (by rw [c3]; exact hk')]
        refine c5 k fun hm => ha ?_
        cases hl1 : mapGet g.lefts a with
        | none => rw [hl1] at hk; cases hk
        | some ks =>
          cases hl2 : mapGet g.lefts e.2.centerPair.1 with
          | none => rw [hl2] at hm; cases hm
          | some js =>
            rw [hl1] at hk
            rw [hl2] at hm
            obtain ⟨_, d1, _, _, _, d2, _⟩ := hi.lSome hres _ js hl2 k hm
            obtain ⟨_, d3, _, _, _, d4, _⟩ := hi.lSome hres _ ks hl1 k hk
            rw [d1] at d3
            cases d3
            exact d4.symm.trans d2

theorem lasts_elems (R : L.Right) (hb : L.declared boundarySym boundarySym) {o : Options} (hres : o.resolveLeft = true) :
    ∀ (E D : List (How × Rule L)) (g : Grammar L), Inv o g D → Lasts g D → (∀ e ∈ E, Fresh e) → (∀ a, (demands (D ++ E) a).Pairwise Sp) →
      Lasts (E.foldl (addElem o) g) (D ++ E)
  | [], D, g, _, h, _, _ => by simpa using h
  | e :: E, D, g, hi, h, hf, hp => by
    rw [List.foldl_cons]
    have hfe := hf e (List.mem_cons_self ..)
    have hi' : Inv o (addElem o g e) (D ++ [e]) := inv_elems R hb o [e] D g hi fun x hx => by rw [List.mem_singleton.1 hx]; exact hfe
    have e1 : D ++ e :: E = (D ++ [e]) ++ E := by simp
    have h' : Lasts (addElem o g e) (D ++ [e]) := by
      refine lasts_elem R hb hres h hi hfe fun he x hx => ?_
      have := hp e.2.centerPair.1
      rw [e1] at this
      unfold demands at this
      rw [List.filter_append, List.map_append, List.pairwise_append] at this
      have h2 := this.1
      rw [show ((D ++ [e]).filter fun x => decide (x.1 = .left ∧ x.2.centerPair.1 = e.2.centerPair.1)).map Prod.snd =
        demands (D ++ [e]) e.2.centerPair.1 from rfl, demands_snoc, if_pos ⟨he, rfl⟩, List.pairwise_append] at h2
      exact h2.2.2 x hx e.2 (List.mem_singleton.2 rfl)
    rw [e1] at hp ⊢
    exact lasts_elems R hb hres E (D ++ [e]) _ hi' h' (fun x hx => hf x (List.mem_cons_of_mem _ hx)) hp

theorem lasts_init : Lasts (Grammar.init L) [] := ⟨by simp [Grammar.init], fun _ => ⟨List.nodup_nil, trivial⟩⟩

end Hfst.TwolcRule
