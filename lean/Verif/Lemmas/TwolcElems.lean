import Verif.Lemmas.TwolcInv

/-!
# Lemmas about the rules of a two-level grammar: from the text to the rules
-/
namespace Hfst.TwolcRule
open Hfst.Basic (Sym mapGet mapPut setInsert)

variable {L : Lib}

/-- The places of a rule in the text. -/
def Source.ctx (s : Source L) : L.T := L.subtract (joinContexts L s.contexts) (joinContexts L s.exceptions)

/-- The rules for a pair. -/
def pairElems (name : Sym) (p : Sym × Sym) (op : Op) (c : L.T) : List (How × Rule L) :=
  let mk := fun k => Rule.make L k name p (getCenterPair L p) [c]
  match op with
  | .right => [(.right, mk .right)]
  | .left => [(.left, mk .left)]
  | .leftRight => [(.right, mk .right), (.left, mk .left)]
  | .notLeft => [(.other, mk .notLeft)]

/-- The name for a pair. -/
def nameFor (name : Sym) (ps : List (Sym × Sym)) (p : Sym × Sym) : Sym :=
  match ps with
  | [_] => name
  | _ => centerName name p

/-- The rules for an expression. -/
def reElems (name : Sym) (c : L.T) (op : Op) (d : L.T) : List (How × Rule L) :=
  let mk := fun k => Rule.make L k name ([], []) (getCenter L c) [d]
  match op with
  | .right => [(.other, mk .right)]
  | .left => [(.other, mk .left)]
  | .leftRight => [(.other, mk .right), (.other, mk .left)]
  | .notLeft => [(.other, mk .notLeft)]

/-- The rules that a rule of the text stands for. -/
def Source.elems (s : Source L) : List (How × Rule L) :=
  match s.center with
  | .pairs ps => ps.flatMap fun p => pairElems (nameFor s.name ps p) p s.op s.ctx
  | .re c => reElems s.name c s.op s.ctx

theorem addPair_eq (o : Options) (g : Grammar L) (name : Sym) (p : Sym × Sym) (op : Op) (c : L.T) :
    g.addPair o name p op [c] = (pairElems name p op c).foldl (addElem o) g := by
  cases op <;> rfl

theorem addPairs_eq (o : Options) (name : Sym) (op : Op) (c : L.T) : ∀ (ps : List (Sym × Sym)) (g : Grammar L),
    g.addPairs o name ps op [c] = (ps.flatMap fun p => pairElems (centerName name p) p op c).foldl (addElem o) g
  | [], g => rfl
  | p :: ps, g => by
    unfold Grammar.addPairs
    rw [List.foldl_cons, List.flatMap_cons, List.foldl_append, ← addPair_eq]
    exact addPairs_eq o name op c ps _

theorem read_eq (o : Options) (g : Grammar L) (s : Source L) : g.read o s = s.elems.foldl (addElem o) g := by
  obtain ⟨name, center, op, cs, es⟩ := s
  unfold Grammar.read Source.elems
  cases center with
  | pairs ps =>
    dsimp only
    match ps with
    | [] => rfl
    | [p] => simp only [List.flatMap_cons, List.flatMap_nil, List.append_nil]; exact addPair_eq o g _ p op _
    | p :: q :: ps => exact addPairs_eq o name op _ (p :: q :: ps) g
  | re c => cases op <;> rfl

theorem readRules_eq (o : Options) (rs : List (Source L)) : readRules o rs = (rs.flatMap Source.elems).foldl (addElem o) (Grammar.init L) := by
  unfold readRules
  generalize Grammar.init L = g
  induction rs generalizing g with
  | nil => rfl
  | cons s rs ih => rw [List.foldl_cons, List.flatMap_cons, List.foldl_append, ih, read_eq]

theorem ctx_source (R : L.Right) {s : Source L} (h : s.Good) : Ctx s.ctx s.Applies :=
  ctx_subtract R (ctx_joinContexts R _ fun c hc => h.2.2 c (List.mem_append_left _ hc)) (ctx_joinContexts R _ fun c hc => h.2.2 c (List.mem_append_right _ hc))

theorem make_wf (R : L.Right) {s : Source L} (h : s.Good) (k : Kind) (name : Sym) (p : Sym × Sym) {c : L.T} {C} (hc : Cen c C) :
    (Rule.make L k name p c [s.ctx]).Wf ∧ (∀ m, (Rule.make L k name p c [s.ctx]).C m ↔ C m) ∧
      ∀ l r, (Rule.make L k name p c [s.ctx]).P l r ↔ (Pairs L l ∧ Pairs L r ∧ s.Applies l r) := by
  refine Rule.wf_of hc ?_
  exact ctx_congr (ctx_disjunct R (ctx_nothing R) (ctx_source R h)) fun l r _ _ => ⟨fun h => h.resolve_left id, Or.inr⟩

/-- The operators that stand for a kind of rules. -/
def Op.has : Op → Kind → Prop
  | op, .right => op = .right ∨ op = .leftRight
  | op, .left => op = .left ∨ op = .leftRight
  | op, .notLeft => op = .notLeft

/-- What a rule comes from. -/
def From (s : Source L) (e : How × Rule L) : Prop :=
  (e.1 = .right ∧ s.Restricts e.2.centerPair) ∨ (e.1 = .left ∧ s.Forces e.2.centerPair) ∨
  (e.1 = .other ∧ e.2.kind = .notLeft ∧ s.Forbids e.2.centerPair ∧ ∀ m, e.2.C m ↔ m = one e.2.centerPair) ∨
  (e.1 = .other ∧ ∃ c, s.center = .re c ∧ (∀ m, e.2.C m ↔ L.lang c m) ∧ s.op.has e.2.kind)

theorem elems_from (R : L.Right) {s : Source L} (h : s.Good) : ∀ e ∈ s.elems, Fresh e ∧ (∀ l r, e.2.P l r ↔ (Pairs L l ∧ Pairs L r ∧ s.Applies l r)) ∧ From s e := by
  intro e he
  unfold Source.elems at he
  cases hc : s.center with
  | pairs ps =>
    rw [hc] at he
    dsimp only at he
    obtain ⟨p, hp, he⟩ := List.mem_flatMap.1 he
    generalize nameFor s.name ps p = name at he
    have mk := fun k => make_wf R h k name p (cen_pair R (h.1 ps hc p hp))
    unfold pairElems at he
    cases hop : s.op <;> rw [hop] at he <;> simp only [List.mem_cons, List.not_mem_nil, or_false] at he
    · subst he
      exact ⟨⟨(mk _).1, rfl, fun _ => ⟨rfl, (mk _).2.1⟩, fun e => by cases e⟩, (mk _).2.2, Or.inl ⟨rfl, Or.inl hop, ps, hc, hp⟩⟩
    · subst he
      exact ⟨⟨(mk _).1, rfl, (fun e => by cases e), fun _ => ⟨rfl, (mk _).2.1⟩⟩, (mk _).2.2, Or.inr (Or.inl ⟨rfl, Or.inl hop, ps, hc, hp⟩)⟩
    · rcases he with rfl | rfl
      · exact ⟨⟨(mk _).1, rfl, fun _ => ⟨rfl, (mk _).2.1⟩, fun e => by cases e⟩, (mk _).2.2, Or.inl ⟨rfl, Or.inr hop, ps, hc, hp⟩⟩
      · exact ⟨⟨(mk _).1, rfl, (fun e => by cases e), fun _ => ⟨rfl, (mk _).2.1⟩⟩, (mk _).2.2, Or.inr (Or.inl ⟨rfl, Or.inr hop, ps, hc, hp⟩)⟩
    · subst he
      exact ⟨⟨(mk _).1, rfl, (fun e => by cases e), fun e => by cases e⟩, (mk _).2.2, Or.inr (Or.inr (Or.inl ⟨rfl, rfl, ⟨hop, ps, hc, hp⟩, (mk _).2.1⟩))⟩
  | re c =>
    rw [hc] at he
    dsimp only at he
    have mk := fun k => make_wf R h k s.name ([], []) (cen_getCenter R (fun m => Iff.rfl) (h.2.1 c hc))
    unfold reElems at he
    have fin : ∀ k, s.op.has k → e = (.other, Rule.make L k s.name ([], []) (getCenter L c) [s.ctx]) →
        Fresh e ∧ (∀ l r, e.2.P l r ↔ (Pairs L l ∧ Pairs L r ∧ s.Applies l r)) ∧ From s e := by
      rintro k hk rfl
      exact ⟨⟨(mk _).1, rfl, (fun e => by cases e), fun e => by cases e⟩, (mk _).2.2, Or.inr (Or.inr (Or.inr ⟨rfl, c, hc, (mk _).2.1, hk⟩))⟩
    cases hop : s.op <;> rw [hop] at he <;> simp only [List.mem_cons, List.not_mem_nil, or_false] at he
    · exact fin .right (Or.inl hop) he
    · exact fin .left (Or.inl hop) he
    · rcases he with he | he
      · exact fin .right (Or.inr hop) he
      · exact fin .left (Or.inr hop) he
    · exact fin .notLeft hop he

theorem elems_restricts {s : Source L} {p : Sym × Sym} (h : s.Restricts p) : ∃ e ∈ s.elems, e.1 = .right ∧ e.2.centerPair = p := by
  obtain ⟨hop, ps, hc, hp⟩ := h
  unfold Source.elems
  rw [hc]
  dsimp only
  generalize s.ctx = c
  rcases hop with hop | hop <;> rw [hop]
  · exact ⟨_, List.mem_flatMap.2 ⟨p, hp, List.mem_cons_self ..⟩, rfl, rfl⟩
  · exact ⟨_, List.mem_flatMap.2 ⟨p, hp, List.mem_cons_self ..⟩, rfl, rfl⟩

theorem elems_forces {s : Source L} {p : Sym × Sym} (h : s.Forces p) : ∃ e ∈ s.elems, e.1 = .left ∧ e.2.centerPair = p := by
  obtain ⟨hop, ps, hc, hp⟩ := h
  unfold Source.elems
  rw [hc]
  dsimp only
  generalize s.ctx = c
  rcases hop with hop | hop <;> rw [hop]
  · exact ⟨_, List.mem_flatMap.2 ⟨p, hp, List.mem_cons_self ..⟩, rfl, rfl⟩
  · exact ⟨_, List.mem_flatMap.2 ⟨p, hp, List.mem_cons_of_mem _ (List.mem_cons_self ..)⟩, rfl, rfl⟩

theorem elems_forbids {s : Source L} {p : Sym × Sym} (h : s.Forbids p) : ∃ e ∈ s.elems, e.1 = .other ∧ e.2.kind = .notLeft ∧ e.2.centerPair = p := by
  obtain ⟨hop, ps, hc, hp⟩ := h
  unfold Source.elems
  rw [hc]
  dsimp only
  generalize s.ctx = c
  rw [hop]
  exact ⟨_, List.mem_flatMap.2 ⟨p, hp, List.mem_cons_self ..⟩, rfl, rfl, rfl⟩

theorem elems_re {s : Source L} {c : L.T} (h : s.center = .re c) {k : Kind} (hk : s.op.has k) :
    ∃ e ∈ s.elems, e.1 = .other ∧ e.2.kind = k ∧ e = (.other, Rule.make L k s.name ([], []) (getCenter L c) [s.ctx]) := by
  refine ⟨_, ?_, rfl, rfl, rfl⟩
  unfold Source.elems
  rw [h]
  dsimp only
  generalize s.ctx = c
  cases k with
  | right => rcases hk with hop | hop <;> rw [hop] <;> exact List.mem_cons_self ..
  | left =>
    rcases hk with hop | hop <;> rw [hop]
    · exact List.mem_cons_self ..
    · exact List.mem_cons_of_mem _ (List.mem_cons_self ..)
  | notLeft =>
    rw [show s.op = .notLeft from hk]
    exact List.mem_cons_self ..

theorem inv_rules (R : L.Right) (hb : L.declared boundarySym boundarySym) (o : Options) {rs : List (Source L)} (hg : ∀ s ∈ rs, s.Good) :
    Inv o (readRules o rs) (rs.flatMap Source.elems) := by
  rw [readRules_eq]
  have := inv_elems R hb o (rs.flatMap Source.elems) [] _ (inv_init o) fun e he => by
    obtain ⟨s, hs, he⟩ := List.mem_flatMap.1 he
    exact (elems_from R (hg s hs) e he).1
  simpa using this

theorem accepted_says (R : L.Right) {o : Options} {g : Grammar L} {E : List (How × Rule L)} (h : Inv o g E) {w : List Letter} (hp : Pairs L w) :
    AcceptedByAll g.stored w ↔ SaysAll g.heap w := accepted_iff R h.grouped h.vec h.wf hp

theorem saysAll_iff {o : Options} {g : Grammar L} {E : List (How × Rule L)} (h : Inv o g E) (hf : ∀ e ∈ E, Fresh e) (w : List Letter) :
    SaysAll g.heap w ↔
      (o.resolveRight = true → ∀ p, (∃ e ∈ E, e.1 = .right ∧ e.2.centerPair = p) → ∀ l r, w = l ++ one p ++ r →
        ∃ e ∈ E, e.1 = .right ∧ e.2.centerPair = p ∧ e.2.P l r) ∧
      (o.resolveLeft = true → ∀ a ks, mapGet g.lefts a = some ks → ∀ k ∈ ks, ∀ x, g.heap[k]? = some x → Says .left (· = one x.centerPair) x.P w) ∧
      ∀ e ∈ E, Static o e.1 → Says e.2.kind e.2.C e.2.P w := by
  constructor
  · intro hs
    refine ⟨?_, ?_, ?_⟩
    · rintro hr p ⟨e, he, h1, h2⟩ l r hw
      cases hj : mapGet g.rights p with
      | none => exact absurd h2 (h.rNone p hj e he h1)
      | some j =>
        obtain ⟨x, a1, a2, a3, a4, _, a7⟩ := h.rSome hr p j hj
        have := hs x (List.mem_of_getElem? a1) a3 l (one p) r hw
        rw [a2] at this
        exact (a7 l r).1 (this ((a4 _).2 rfl))
    · intro hl a ks ha k hk x hx
      obtain ⟨x', a1, a2, a3, a4, _⟩ := h.lSome hl a ks ha k hk
      rw [hx] at a1
      cases a1
      have := hs x (List.mem_of_getElem? hx) a3
      rw [a2, show x.C = (· = one x.centerPair) from funext fun m => propext (a4 m)] at this
      exact this
    · intro e he hst
      obtain ⟨k, a1, _⟩ := h.statics e he hst
      exact hs e.2 (List.mem_of_getElem? a1) (hf e he).2.1
  · rintro ⟨h1, h2, h3⟩ x hx hxe
    obtain ⟨k, hk, rfl⟩ := List.mem_iff_getElem.1 hx
    have hk' : g.heap[k]? = some g.heap[k] := List.getElem?_eq_getElem hk
    rcases h.cover k _ hk' hxe with ⟨hr, p, hp⟩ | ⟨hl, a, ks, ha, hks⟩ | ⟨e, he, hst, hee⟩
    · obtain ⟨x, a1, a2, a3, a4, a5, a7⟩ := h.rSome hr p k hp
      rw [hk'] at a1
      cases a1
      rw [a2]
      intro l m r hw hm
      rw [(a4 m).1 hm] at hw
      exact (a7 l r).2 (h1 hr p a5 l r hw)
    · obtain ⟨x', a1, a2, a3, a4, _⟩ := h.lSome hl a ks ha k hks
      rw [hk'] at a1
      cases a1
      rw [a2, show (g.heap[k]).C = (· = one (g.heap[k]).centerPair) from funext fun m => propext (a4 m)]
      exact h2 hl a ks ha k hks _ hk'
    · rw [← hee]
      exact h3 e he hst

theorem pairs_split {w l m r : List Letter} (h : Pairs L w) (e : w = l ++ m ++ r) : Pairs L l ∧ Pairs L m ∧ Pairs L r := by
  rw [e, pairs_append, pairs_append] at h
  exact ⟨h.1.1, h.1.2, h.2⟩

theorem right_iff (R : L.Right) {rs : List (Source L)} (hg : ∀ s ∈ rs, s.Good) {w : List Letter} (hp : Pairs L w) :
    (∀ p, (∃ e ∈ rs.flatMap Source.elems, e.1 = .right ∧ e.2.centerPair = p) → ∀ l r, w = l ++ one p ++ r →
        ∃ e ∈ rs.flatMap Source.elems, e.1 = .right ∧ e.2.centerPair = p ∧ e.2.P l r) ↔ RightObeyed rs w := by
  constructor
  · rintro h p ⟨s, hs, hsp⟩ l r hw
    obtain ⟨e, he, h1, h2⟩ := elems_restricts hsp
    obtain ⟨e, he, h1, h2, h3⟩ := h p ⟨e, List.mem_flatMap.2 ⟨s, hs, he⟩, h1, h2⟩ l r hw
    obtain ⟨s, hs, he⟩ := List.mem_flatMap.1 he
    obtain ⟨_, a, b⟩ := elems_from R (hg s hs) e he
    refine ⟨s, hs, ?_, ((a l r).1 h3).2.2⟩
    rcases b with b | b | b | b
    · rw [← h2]; exact b.2
    · rw [h1] at b; cases b.1
    · rw [h1] at b; cases b.1
    · rw [h1] at b; cases b.1
  · rintro h p ⟨e, he, h1, h2⟩ l r hw
    obtain ⟨s, hs, he⟩ := List.mem_flatMap.1 he
    obtain ⟨_, _, b⟩ := elems_from R (hg s hs) e he
    have hsp : s.Restricts p := by
      rcases b with b | b | b | b
      · rw [← h2]; exact b.2
      · rw [h1] at b; cases b.1
      · rw [h1] at b; cases b.1
      · rw [h1] at b; cases b.1
    obtain ⟨t, ht, htp, hta⟩ := h p ⟨s, hs, hsp⟩ l r hw
    obtain ⟨e, he, h1, h2⟩ := elems_restricts htp
    obtain ⟨a1, _, a3⟩ := pairs_split hp hw
    exact ⟨e, List.mem_flatMap.2 ⟨t, ht, he⟩, h1, h2, ((elems_from R (hg t ht) e he).2.1 l r).2 ⟨a1, a3, hta⟩⟩

/-- The rules that are taken each for itself. -/
theorem static_iff (R : L.Right) (o : Options) {rs : List (Source L)} (hg : ∀ s ∈ rs, s.Good) {w : List Letter} (hp : Pairs L w) :
    (∀ e ∈ rs.flatMap Source.elems, Static o e.1 → Says e.2.kind e.2.C e.2.P w) ↔
      (o.resolveRight = false → RightObeyedEach rs w) ∧ (o.resolveLeft = false → LeftObeyed rs w) ∧ OtherObeyed rs w := by
  constructor
  · intro h
    refine ⟨?_, ?_, ?_, ?_⟩
    · intro hr s hs p hsp l r hw
      obtain ⟨e, he, h1, h2⟩ := elems_restricts hsp
      obtain ⟨a, b, _⟩ := elems_from R (hg s hs) e he
      have := h e (List.mem_flatMap.2 ⟨s, hs, he⟩) (Or.inr (Or.inl ⟨h1, hr⟩)) l (one p) r hw
      rw [(a.2.2.1 h1).1] at this
      exact ((b l r).1 (this (((a.2.2.1 h1).2 _).2 (by rw [h2])))).2.2
    · intro hl s hs p hsp l m r hw ha hi
      obtain ⟨e, he, h1, h2⟩ := elems_forces hsp
      obtain ⟨a, b, _⟩ := elems_from R (hg s hs) e he
      have := h e (List.mem_flatMap.2 ⟨s, hs, he⟩) (Or.inr (Or.inr ⟨h1, hl⟩)) l m r hw
      rw [(a.2.2.2 h1).1] at this
      obtain ⟨a1, _, a3⟩ := pairs_split hp hw
      rw [← h2]
      exact ((a.2.2.2 h1).2 _).1 (this ((b l r).2 ⟨a1, a3, ha⟩) ⟨one p, ((a.2.2.2 h1).2 _).2 (by rw [h2]), hi⟩)
    · intro s hs p hsp l r hw ha
      obtain ⟨e, he, h1, h2, h3⟩ := elems_forbids hsp
      obtain ⟨a, b, c⟩ := elems_from R (hg s hs) e he
      have hC : e.2.C (one p) := by
        rcases c with c | c | c | c
        · rw [h1] at c; cases c.1
        · rw [h1] at c; cases c.1
        · exact (c.2.2.2 _).2 (by rw [h3])
        · obtain ⟨_, c1, c2, _⟩ := c
          obtain ⟨_, ps, d, _⟩ := hsp
          rw [d] at c2
          cases c2
      have := h e (List.mem_flatMap.2 ⟨s, hs, he⟩) (Or.inl h1) l (one p) r hw
      rw [h2] at this
      obtain ⟨a1, _, a3⟩ := pairs_split hp hw
      exact this hC ((b l r).2 ⟨a1, a3, ha⟩)
    · intro s hs c hc l m r hw
      obtain ⟨a1, _, a3⟩ := pairs_split hp hw
      have key : ∀ k, s.op.has k → ∃ e : Rule L, (∀ m, e.C m ↔ L.lang c m) ∧ (∀ l r, e.P l r ↔ (Pairs L l ∧ Pairs L r ∧ s.Applies l r)) ∧ Says k e.C e.P w := by
        intro k hk
        obtain ⟨e, he, h1, h2, h3⟩ := elems_re hc hk
        obtain ⟨_, b, _⟩ := elems_from R (hg s hs) e he
        have h4 := h e (List.mem_flatMap.2 ⟨s, hs, he⟩) (Or.inl h1)
        rw [h2] at h4
        refine ⟨e.2, ?_, b, h4⟩
        rw [h3]
        exact (make_wf R (hg s hs) k s.name ([], []) (cen_getCenter R (fun m => Iff.rfl) ((hg s hs).2.1 c hc))).2.1
      refine ⟨fun hop hm => ?_, fun hop ha hv => ?_, fun hop hm ha => ?_⟩
      · obtain ⟨e, e1, e2, e3⟩ := key .right hop
        exact ((e2 l r).1 (e3 l m r hw ((e1 m).2 hm))).2.2
      · obtain ⟨e, e1, e2, e3⟩ := key .left hop
        obtain ⟨v, v1, v2⟩ := hv
        exact (e1 m).1 (e3 l m r hw ((e2 l r).2 ⟨a1, a3, ha⟩) ⟨v, (e1 v).2 v1, v2⟩)
      · obtain ⟨e, e1, e2, e3⟩ := key .notLeft hop
        exact e3 l m r hw ((e1 m).2 hm) ((e2 l r).2 ⟨a1, a3, ha⟩)
  · rintro ⟨h1, h2, h3, h4⟩ e he hst l m r hw
    obtain ⟨s, hs, he⟩ := List.mem_flatMap.1 he
    obtain ⟨a, b, c⟩ := elems_from R (hg s hs) e he
    obtain ⟨a1, _, a3⟩ := pairs_split hp hw
    rcases c with ⟨c1, c2⟩ | ⟨c1, c2⟩ | ⟨c1, c2, c3, c4⟩ | ⟨c1, c, c2, c3, c4⟩
    · rw [(a.2.2.1 c1).1]
      intro hm
      rw [((a.2.2.1 c1).2 m).1 hm] at hw
      rcases hst with k | k | k
      · rw [c1] at k; cases k
      · exact (b l r).2 ⟨a1, a3, h1 k.2 s hs _ c2 l r hw⟩
      · rw [c1] at k; cases k.1
    · rw [(a.2.2.2 c1).1]
      rintro ha ⟨v, hv, hi⟩
      rw [((a.2.2.2 c1).2 v).1 hv] at hi
      rcases hst with k | k | k
      · rw [c1] at k; cases k
      · rw [c1] at k; cases k.1
      · exact ((a.2.2.2 c1).2 m).2 (h2 k.2 s hs _ c2 l m r hw ((b l r).1 ha).2.2 hi)
    · rw [c2]
      intro hm ha
      rw [(c4 m).1 hm] at hw
      exact h3 s hs _ c3 l r hw ((b l r).1 ha).2.2
    · obtain ⟨d1, d2, d3⟩ := h4 s hs c c2 l m r hw
      cases hk : e.2.kind with
      | right =>
        rw [hk] at c4
        exact fun hm => (b l r).2 ⟨a1, a3, d1 c4 ((c3 m).1 hm)⟩
      | left =>
        rw [hk] at c4
        rintro ha ⟨v, hv, hi⟩
        exact (c3 m).2 (d2 c4 ((b l r).1 ha).2.2 ⟨v, (c3 v).1 hv, hi⟩)
      | notLeft =>
        rw [hk] at c4
        exact fun hm ha => d3 c4 ((c3 m).1 hm) ((b l r).1 ha).2.2

end Hfst.TwolcRule
