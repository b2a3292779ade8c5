import Verif.Props.Shuffle
import Verif.Props.Markers

/-!
# C79: what shuffle computes
-/
namespace Hfst.Trans
open Hfst.Basic Hfst.Lexc
open Graph

/-! ## Interleaving -/

theorem interleaved_of_inserted {f f' : Sym → Sym} (hne : ∀ x y, f x ≠ f' y) {ps ps' : List (Sym × Sym)}
    (hp : ∀ p ∈ ps, ∃ x, p = (f x, f x)) (hp' : ∀ p ∈ ps', ∃ x, p = (f' x, f' x)) {a b k : List (Sym × Sym)} {n n' : Nat}
    (ha : ∀ p ∈ a, ∃ x, p = (f x, f x)) (hb : ∀ p ∈ b, ∃ x, p = (f' x, f' x)) (h : Inserted ps' a k n) (h' : Inserted ps b k n') :
    Interleaved a b k := by
  induction k generalizing a b n n' with
  | nil =>
    cases h
    cases h'
    exact .nil
  | cons p k ih =>
    cases h with
    | keep _ h =>
      obtain ⟨x, hx⟩ := ha p (by simp)
      cases h' with
      | keep _ h' =>
        obtain ⟨y, hy⟩ := hb p (by simp)
        exact absurd ((congrArg Prod.fst hx).symm.trans (congrArg Prod.fst hy)) (hne x y)
      | ins _ h' => exact .left (ih (fun q hq => ha q (by simp [hq])) hb h h')
    | ins hq h =>
      obtain ⟨x, hx⟩ := hp' p hq
      cases h' with
      | keep _ h' => exact .right (ih ha (fun q hq => hb q (by simp [hq])) h h')
      | ins hq' h' =>
        obtain ⟨y, hy⟩ := hp p hq'
        exact absurd ((congrArg Prod.fst hy).symm.trans (congrArg Prod.fst hx)) (hne y x)

theorem inserted_of_interleaved {ps ps' a b k : List (Sym × Sym)} (h : Interleaved a b k) (ha : ∀ p ∈ a, p ∈ ps)
    (hb : ∀ p ∈ b, p ∈ ps') : (∃ n, Inserted ps' a k n) ∧ ∃ n, Inserted ps b k n := by
  induction h with
  | nil => exact ⟨⟨0, .nil⟩, ⟨0, .nil⟩⟩
  | @left p a b l _ ih =>
    obtain ⟨⟨n, h1⟩, ⟨m, h2⟩⟩ := ih (fun q hq => ha q (by simp [hq])) hb
    exact ⟨⟨n, .keep p h1⟩, ⟨m + 1, .ins (ha p (by simp)) h2⟩⟩
  | @right p a b l _ ih =>
    obtain ⟨⟨n, h1⟩, ⟨m, h2⟩⟩ := ih ha (fun q hq => hb q (by simp [hq]))
    exact ⟨⟨n + 1, .ins (hb p (by simp)) h1⟩, ⟨m, .keep p h2⟩⟩

theorem Interleaved.map (F : Sym × Sym → Sym × Sym) {a b k : List (Sym × Sym)} (h : Interleaved a b k) :
    Interleaved (a.map F) (b.map F) (k.map F) := by
  induction h with
  | nil => exact .nil
  | left _ ih => exact .left ih
  | right _ ih => exact .right ih

theorem Interleaved.lift {F G D : Sym × Sym → Sym × Sym} {a b k : List (Sym × Sym)} (h : Interleaved a b k)
    (ha : ∀ p ∈ a, D (F p) = p) (hb : ∀ p ∈ b, D (G p) = p) : ∃ k₀, Interleaved (a.map F) (b.map G) k₀ ∧ k₀.map D = k := by
  induction h with
  | nil => exact ⟨[], .nil, rfl⟩
  | @left p a b l _ ih =>
    obtain ⟨k₀, h1, h2⟩ := ih (fun q hq => ha q (by simp [hq])) hb
    exact ⟨F p :: k₀, .left h1, by rw [List.map_cons, h2, ha p (by simp)]⟩
  | @right p a b l _ ih =>
    obtain ⟨k₀, h1, h2⟩ := ih ha (fun q hq => hb q (by simp [hq]))
    exact ⟨G p :: k₀, .right h1, by rw [List.map_cons, h2, hb p (by simp)]⟩

theorem Interleaved.mem {a b k : List (Sym × Sym)} (h : Interleaved a b k) {p : Sym × Sym} : p ∈ k ↔ p ∈ a ∨ p ∈ b := by
  induction h with
  | nil => simp
  | left _ ih => rw [List.mem_cons, ih, List.mem_cons, or_assoc]
  | right _ ih => rw [List.mem_cons, ih, List.mem_cons, ← or_assoc, ← or_assoc, or_comm (a := _ = _)]

theorem Interleaved.forall₂ {R : Sym × Sym → Sym × Sym → Prop} {a b k l : List (Sym × Sym)} (h : Interleaved a b k)
    (hf : List.Forall₂ R k l) : ∃ a' b', List.Forall₂ R a a' ∧ List.Forall₂ R b b' ∧ Interleaved a' b' l := by
  induction h generalizing l with
  | nil => cases hf; exact ⟨[], [], .nil, .nil, .nil⟩
  | left _ ih =>
    cases hf with
    | cons h1 h2 =>
      obtain ⟨a', b', h3, h4, h5⟩ := ih h2
      exact ⟨_ :: a', b', .cons h1 h3, h4, .left h5⟩
  | right _ ih =>
    cases hf with
    | cons h1 h2 =>
      obtain ⟨a', b', h3, h4, h5⟩ := ih h2
      exact ⟨a', _ :: b', h3, .cons h1 h4, .right h5⟩

theorem Interleaved.forall₂_up {R : Sym × Sym → Sym × Sym → Prop} {a b a' b' l : List (Sym × Sym)} (h : Interleaved a' b' l)
    (ha : List.Forall₂ R a a') (hb : List.Forall₂ R b b') : ∃ k, Interleaved a b k ∧ List.Forall₂ R k l := by
  induction h generalizing a b with
  | nil => cases ha; cases hb; exact ⟨[], .nil, .nil⟩
  | left _ ih =>
    cases ha with
    | cons h1 h2 =>
      obtain ⟨k, h3, h4⟩ := ih h2 hb
      exact ⟨_ :: k, .left h3, .cons h1 h4⟩
  | right _ ih =>
    cases hb with
    | cons h1 h2 =>
      obtain ⟨k, h3, h4⟩ := ih ha h2
      exact ⟨_ :: k, .right h3, .cons h1 h4⟩

/-! ## Intersection without unknown and identity symbols -/

theorem path_congr {g g' : Graph} (ha : ∀ s, g'.arcs s = g.arcs s) {s q : Nat} {l : List (Sym × Sym)} {w : Int} (h : Path g s l w q) :
    Path g' s l w q := by
  induction h with
  | nil s => exact .nil s
  | cons hm _ ih => exact .cons (by rw [ha]; exact hm) ih

theorem cost_congr {g g' : Graph} (ha : ∀ s, g'.arcs s = g.arcs s) (hf : ∀ s, g'.final s = g.final s) (k : List (Sym × Sym)) (w : Int) :
    Cost g' k w ↔ Cost g k w := by
  unfold Cost Accepts
  constructor
  · rintro ⟨l, v, ⟨q, u, z, h1, h2, h3⟩, h4⟩
    exact ⟨l, v, ⟨q, u, z, path_congr (fun s => (ha s).symm) h1, by rw [← hf]; exact h2, h3⟩, h4⟩
  · rintro ⟨l, v, ⟨q, u, z, h1, h2, h3⟩, h4⟩
    exact ⟨l, v, ⟨q, u, z, path_congr ha h1, by rw [hf]; exact h2, h3⟩, h4⟩

theorem intersect_closed {B : Backend} (hB : B.Ok) {a b : Graph} (ua : Usual a) (ub : Usual b) (ca : Closed a) (cb : Closed b) :
    ∃ r, intersect B a b = .ok r ∧ Good r ∧ (∀ x, x ∈ r.alphabet ↔ x ∈ a.alphabet ∨ x ∈ b.alphabet) ∧
      (∀ p, HasLabel r p → HasLabel a p ∨ p = (epsilon, epsilon)) ∧
      ∀ k w, Cost r k w ↔ ∃ w₁ w₂, Cost a k w₁ ∧ Cost b k w₂ ∧ w₁ + w₂ ≤ w := by
  obtain ⟨u1, u2, hal, _, _⟩ := prepare_means ua ub
  have l1 : Larger a (prepare a b true).1 := larger_addSymbols a _
  have l2 : Larger b (prepare a b true).2 := larger_addSymbols b _
  obtain ⟨a', b', h1, u3, u4, al1, al2, _, _⟩ := harmonize_shape u1 u2
  obtain ⟨a'', b'', m₁, m₂, h2, r1, r2, _, _, f1, f2⟩ := harmonize_expand u1 u2
  rw [h1] at h2
  obtain ⟨rfl, rfl⟩ : a' = a'' ∧ b' = b'' := by
    injection h2 with h2
    exact ⟨congrArg Prod.fst h2, congrArg Prod.snd h2⟩
  have closed_arcs : ∀ {g : Graph}, Closed g → ∀ s, ∀ x ∈ g.arcs s, x.inp ≠ unknown ∧ x.inp ≠ identity ∧ x.out ≠ unknown :=
    fun hc s x hx => ⟨(hc x.label ⟨s, x, hx, rfl⟩).1, (hc x.label ⟨s, x, hx, rfl⟩).2.1, (hc x.label ⟨s, x, hx, rfl⟩).2.2.1⟩
  have e1 : ∀ s, a'.arcs s = a.arcs s := by
    intro s
    rw [r1, l1.arcs, expand_closed (closed_arcs ca s)]
  have e2 : ∀ s, b'.arcs s = b.arcs s := by
    intro s
    rw [r2, l2.arcs, expand_closed (closed_arcs cb s)]
  have e3 : ∀ s, a'.final s = a.final s := fun s => by rw [f1]; unfold Graph.final; rw [l1.2.1]
  have e4 : ∀ s, b'.final s = b.final s := fun s => by rw [f2]; unfold Graph.final; rw [l2.2.1]
  have res := hB.intersect a' b' u3.good u4.good fun x => by rw [al1, al2]
  refine ⟨B.intersect a' b', ?_, res.good, fun x => ?_, fun p hp => ?_, fun k w => ?_⟩
  · unfold intersect apply
    dsimp only
    rw [h1]
    rfl
  · rw [res.alphabet x, al1, hal]
  · refine (res.labels p hp).imp ?_ id
    rintro ⟨s, x, hx, rfl⟩
    exact ⟨s, x, by rw [← e1]; exact hx, rfl⟩
  · rw [res.cost]
    simp only [cost_congr e1 e3, cost_congr e2 e4]

theorem convert_usual {g : Graph} (hg : Usual g) : convert g = g := by
  unfold convert Graph.addSymbols
  simp only [List.foldl, setInsert, hg.good.alpha.eps, hg.good.alpha.unk, hg.good.alpha.idn, if_true]

/-! ## Shuffle -/

/-- No symbol of the alphabet begins with the tags that `shuffle` uses. -/
def Untagged (g : Graph) : Prop := ∀ x ∈ g.alphabet, ∀ y, x ≠ '@' :: '1' :: y ∧ x ≠ '@' :: '2' :: y

theorem decode_tag {f : Sym → Sym} (hf : Tag f) (hd : ∀ x, decode (f x) = x) {p : Sym × Sym} (hp : p.1 = p.2) :
    coded decode (tag f p) = p := by
  unfold coded tag
  rw [if_neg (by simp), if_neg]
  · dsimp only
    rw [hd]
    exact Prod.ext rfl hp
  · rintro (e | e)
    · exact hf.eps _ e
    · exact hf.unk _ e

theorem harmonize_recognizer {g h : Graph} (hg : Usual g) (hh : Usual h) (rg : Recognizer g) (rh : Recognizer h) {g' h' : Graph}
    (e : harmonize g h = .ok (g', h')) : Recognizer g' ∧ Recognizer h' := by
  obtain ⟨g'', h'', m₁, m₂, e2, r1, r2, n1, n2, _⟩ := harmonize_expand hg hh
  rw [e] at e2
  obtain ⟨rfl, rfl⟩ : g' = g'' ∧ h' = h'' := by
    injection e2 with e2
    exact ⟨congrArg Prod.fst e2, congrArg Prod.snd e2⟩
  constructor
  · intro s a ha
    rw [r1] at ha
    exact expand_recognizer (rg s) n2 a ha
  · intro s a ha
    rw [r2] at ha
    exact expand_recognizer (rh s) n1 a ha

theorem notAutomaton_iff (g : Graph) : notAutomaton g = true ↔ ∃ s, ∃ a ∈ g.arcs s, a.inp ≠ a.out := by
  unfold notAutomaton
  rw [any_arc]
  simp only [decide_eq_true_eq]

set_option maxHeartbeats 1000000 in
/-- What shuffle computes, symbol by symbol. -/
theorem shuffle_core {B : Backend} (hB : B.Ok) {g h : Graph} (hg : Usual g) (hh : Usual h) (rg : Recognizer g) (rh : Recognizer h)
    (tg : Untagged g) (th : Untagged h) :
    ∃ g₁ h₁ r, harmonize g h = .ok (g₁, h₁) ∧ shuffle B g h = .ok r ∧ Usual r ∧
      (∀ x ∈ r.alphabet, (x = epsilon ∨ x = unknown ∨ x = identity) ∨ HasLabel g₁ (x, x) ∨ HasLabel h₁ (x, x)) ∧
      ∀ k w, Cost r k w ↔ ∃ l₁ l₂ w₁ w₂, Cost g₁ l₁ w₁ ∧ Cost h₁ l₂ w₂ ∧ Interleaved l₁ l₂ k ∧ w₁ + w₂ ≤ w := by
  obtain ⟨g₁, h₁, e1, u1, u2, al1, al2, _, _⟩ := harmonize_shape hg hh
  obtain ⟨r1, r2⟩ := harmonize_recognizer hg hh rg rh e1
  have hu : ∀ x, x ∈ g.alphabet ∨ x ∈ h.alphabet → ∀ y, x ≠ encodeFirst y ∧ x ≠ encodeSecond y := by
    rintro x (hx | hx)
    · exact tg x hx
    · exact th x hx
  obtain ⟨a, ea, sa⟩ := side_spec u1 r1 tagFirst fun x hx y => (hu x ((al1 x).mp hx) y).1
  obtain ⟨b, eb, sb⟩ := side_spec u2 r2 tagSecond fun x hx y => (hu x ((al2 x).mp hx) y).2
  obtain ⟨a', ea', ua, ca, ala, laa, csa⟩ := sa.insert b.alphabet fun x hx => by
    obtain ⟨p, _, _, rfl⟩ := (sb.alphabet x).mp hx
    exact ⟨encodeSecond, p.1, tagSecond, rfl⟩
  obtain ⟨b', eb', ub, cb, alb, lab, csb⟩ := sb.insert a.alphabet fun x hx => by
    obtain ⟨p, _, _, rfl⟩ := (sa.alphabet x).mp hx
    exact ⟨encodeFirst, p.1, tagFirst, rfl⟩
  obtain ⟨r, er, gr, alr, labr, cr⟩ := intersect_closed hB ua ub ca cb
  have ro := hB.optimize r gr
  have lo := larger_convert (B.optimize r)
  -- the labels before decoding
  have labo : ∀ p, HasLabel (convert (B.optimize r)) p → p = (epsilon, epsilon) ∨
      (∃ q, HasLabel g₁ q ∧ q.1 ≠ epsilon ∧ p = tag encodeFirst q) ∨ ∃ q, HasLabel h₁ q ∧ q.1 ≠ epsilon ∧ p = tag encodeSecond q := by
    intro p hp
    have hp := (lo.label p).mp hp
    rcases ro.labels p hp with hp | hp
    · rcases labr p hp with hp | hp
      · rcases laa p hp with hp | hp | hp
        · exact .inl hp
        · obtain ⟨h1, h2⟩ := mem_pairsOf.mp hp
          obtain ⟨q, h3, h4, h5⟩ := (sb.alphabet _).mp h2
          exact .inr (.inr ⟨q, h3, h4, Prod.ext h5 (h1 ▸ h5)⟩)
        · obtain ⟨h1, h2⟩ := mem_pairsOf.mp hp
          obtain ⟨q, h3, h4, h5⟩ := (sa.alphabet _).mp h2
          exact .inr (.inl ⟨q, h3, h4, Prod.ext h5 (h1 ▸ h5)⟩)
      · exact .inl hp
    · exact .inl hp
  have hd1 : ∀ x, decode (encodeFirst x) = x := fun _ => rfl
  have hd2 : ∀ x, decode (encodeSecond x) = x := fun _ => rfl
  have dec1 : ∀ q, HasLabel g₁ q → coded decode (tag encodeFirst q) = q := fun q hq => decode_tag tagFirst hd1 (recognizer_label r1 hq).1
  have dec2 : ∀ q, HasLabel h₁ q → coded decode (tag encodeSecond q) = q := fun q hq => decode_tag tagSecond hd2 (recognizer_label r2 hq).1
  have ne1 : ∀ q, HasLabel g₁ q → q.1 ≠ [] := fun q hq e => u1.nonempty (e ▸ (label_alpha u1.good hq).1)
  have ne2 : ∀ q, HasLabel h₁ q → q.1 ≠ [] := fun q hq e => u2.nonempty (e ▸ (label_alpha u2.good hq).1)
  have wfo : WF (convert (B.optimize r)) := ⟨ro.good.wf.nonempty, ro.good.wf.targets, ro.good.wf.finals⟩
  obtain ⟨d, ed, cd⟩ := code_spec wfo decode fun p hp _ h0 _ => by
    rcases labo p hp with rfl | ⟨q, hq, _, rfl⟩ | ⟨q, hq, _, rfl⟩
    · exact absurd rfl h0
    · exact ne1 q hq
    · exact ne2 q hq
  generalize hz : (d.removeSymbols a.alphabet).removeSymbols b.alphabet = z
  have lz : Larger z d := hz ▸ (larger_removeSymbols _ _).trans (larger_removeSymbols _ _)
  have lf := larger_convert z
  have esh : shuffle B g h = .ok (convert z) := by
    have na1 : notAutomaton g₁ = false := by
      rw [Bool.eq_false_iff]
      intro hn
      obtain ⟨s, x, hx, hne⟩ := (notAutomaton_iff _).mp hn
      exact hne (r1 s x hx).1
    have na2 : notAutomaton h₁ = false := by
      rw [Bool.eq_false_iff]
      intro hn
      obtain ⟨s, x, hx, hne⟩ := (notAutomaton_iff _).mp hn
      exact hne (r2 s x hx).1
    unfold shuffle
    rw [convert_usual hg, convert_usual hh, e1]
    simp only [Outcome.bind]
    rw [ea, eb]
    simp only [na1, na2, Bool.or_self, Bool.false_eq_true, if_false]
    rw [ea', eb']
    simp only [er, ed, hz]
  -- the labels after decoding
  have labd : ∀ p, HasLabel (convert z) p → p = (epsilon, epsilon) ∨ p.1 = p.2 ∧ p.1 ≠ epsilon ∧ (HasLabel g₁ p ∨ HasLabel h₁ p) := by
    intro p hp
    obtain ⟨q, hq, rfl⟩ := (cd.labels p).mp ((lz.label p).mpr ((lf.label p).mp hp))
    rcases labo q hq with rfl | ⟨q', hq', h0, rfl⟩ | ⟨q', hq', h0, rfl⟩
    · exact .inl (coded_eps _)
    · rw [dec1 q' hq']
      exact .inr ⟨(recognizer_label r1 hq').1, h0, .inl hq'⟩
    · rw [dec2 q' hq']
      exact .inr ⟨(recognizer_label r2 hq').1, h0, .inr hq'⟩
  have alo : ∀ x, x ∈ (convert (B.optimize r)).alphabet ↔ (x ∈ a.alphabet ∨ x ∈ b.alphabet) ∨ x = epsilon ∨ x = unknown ∨ x = identity := by
    intro x
    rw [mem_convert, ro.alphabet x, alr, ala, alb]
    generalize (x = epsilon ∨ x = unknown ∨ x = identity) = P
    tauto
  have hin1 : ∀ p, HasLabel g₁ p → ∀ y, p.1 ≠ encodeFirst y ∧ p.1 ≠ encodeSecond y :=
    fun p hp => hu _ ((al1 _).mp (label_alpha u1.good hp).1)
  have hin2 : ∀ p, HasLabel h₁ p → ∀ y, p.1 ≠ encodeFirst y ∧ p.1 ≠ encodeSecond y :=
    fun p hp => hu _ ((al2 _).mp (label_alpha u2.good hp).1)
  have alz : ∀ x, x ∈ (convert z).alphabet ↔ (x = epsilon ∨ x = unknown ∨ x = identity) ∨
      ∃ p, HasLabel (convert z) p ∧ p.1 ≠ epsilon ∧ x = p.1 := by
    intro x
    rw [mem_convert, or_comm]
    have hzx : x ∈ z.alphabet ↔ (x ∈ d.alphabet ∧ x ∉ a.alphabet) ∧ x ∉ b.alphabet := by
      rw [← hz]
      simp only [Graph.removeSymbols]
      rw [mem_foldl_setErase, mem_foldl_setErase]
    constructor
    · rintro (h1 | h1)
      · exact .inl h1
      · obtain ⟨⟨h1, h2⟩, h3⟩ := hzx.mp h1
        rcases (cd.alphabet x).mp h1 with h4 | ⟨p, h4, h5, h6, h7, rfl⟩
        · rcases (alo x).mp h4 with (h5 | h5) | h5
          · exact absurd h5 h2
          · exact absurd h5 h3
          · exact .inl h5
        · have hl : HasLabel (convert z) (coded decode p) := (lf.label _).mpr ((lz.label _).mp ((cd.labels _).mpr ⟨p, h4, rfl⟩))
          have hc : (coded decode p).1 = decode p.1 := by
            unfold coded
            rw [if_neg (not_not.mpr h5), if_neg]
            rintro (e | e)
            · exact h6 e
            · exact h7 e
          by_cases he : decode p.1 = epsilon
          · exact .inl (.inl he)
          · exact .inr ⟨_, hl, by rw [hc]; exact he, hc.symm⟩
    · rintro (h1 | ⟨p, hp, h0, rfl⟩)
      · exact .inl h1
      · refine .inr (hzx.mpr ⟨⟨?_, ?_⟩, ?_⟩)
        · obtain ⟨q, hq, rfl⟩ := (cd.labels p).mp ((lz.label p).mpr ((lf.label p).mp hp))
          rcases labo q hq with rfl | ⟨q', hq', h0', rfl⟩ | ⟨q', hq', h0', rfl⟩
          · rw [coded_eps] at h0
            exact absurd rfl h0
          · rw [dec1 q' hq']
            exact (cd.alphabet _).mpr (.inr ⟨_, hq, rfl, tagFirst.eps _, tagFirst.unk _, rfl⟩)
          · rw [dec2 q' hq']
            exact (cd.alphabet _).mpr (.inr ⟨_, hq, rfl, tagSecond.eps _, tagSecond.unk _, rfl⟩)
        · intro hx
          obtain ⟨q, _, _, e⟩ := (sa.alphabet _).mp hx
          rcases labd p hp with rfl | ⟨_, _, h3 | h3⟩
          · exact h0 rfl
          · exact (hin1 p h3 _).1 e
          · exact (hin2 p h3 _).1 e
        · intro hx
          obtain ⟨q, _, _, e⟩ := (sb.alphabet _).mp hx
          rcases labd p hp with rfl | ⟨_, _, h3 | h3⟩
          · exact h0 rfl
          · exact (hin1 p h3 _).2 e
          · exact (hin2 p h3 _).2 e
  have wfz : WF (convert z) := by
    rw [← hz]
    exact ⟨cd.wf.nonempty, cd.wf.targets, cd.wf.finals⟩
  have labelz : ∀ p, HasLabel (convert z) p → p.1 = p.2 ∧ p.1 ∈ (convert z).alphabet := by
    intro p hp
    rcases labd p hp with rfl | ⟨h1, h2, _⟩
    · exact ⟨rfl, mem_convert.mpr (.inr (.inl rfl))⟩
    · exact ⟨h1, (alz _).mpr (.inr ⟨p, hp, h2, rfl⟩)⟩
  refine ⟨g₁, h₁, convert z, e1, esh, ⟨⟨wfz, ⟨?_, ?_, ?_, ?_⟩, ?_⟩, ?_, ?_⟩, ?_, ?_⟩
  · intro s x hx
    obtain ⟨h1, h2⟩ := labelz x.label ⟨s, x, hx, rfl⟩
    have h3 : x.inp = x.out := h1
    exact ⟨h2, h3 ▸ h2⟩
  · exact mem_convert.mpr (.inr (.inl rfl))
  · exact mem_convert.mpr (.inr (.inr (.inl rfl)))
  · exact mem_convert.mpr (.inr (.inr (.inr rfl)))
  · have : (convert z).finals = (B.optimize r).finals := by
      rw [← hz]
      exact cd.finals
    unfold FinalMap
    rw [this]
    exact ro.good.finals
  · refine paired_of_labels fun p hp => ?_
    rw [(labelz p hp).1]
  · intro hx
    rcases (alz _).mp hx with (h1 | h1 | h1) | ⟨p, hp, h0, h1⟩
    · exact absurd h1 (by decide)
    · exact absurd h1 (by decide)
    · exact absurd h1 (by decide)
    · rcases labd p hp with rfl | ⟨_, _, h3 | h3⟩
      · exact h0 rfl
      · exact ne1 p h3 h1.symm
      · exact ne2 p h3 h1.symm
  · intro x hx
    rcases (alz _).mp hx with h1 | ⟨p, hp, h0, rfl⟩
    · exact .inl h1
    · rcases labd p hp with rfl | ⟨h2, _, h3⟩
      · exact absurd rfl h0
      · have : p = (p.1, p.1) := Prod.ext rfl h2.symm
        rw [this] at h3
        exact .inr h3
  · intro k w
    have tmem : ∀ {f : Sym → Sym} {c : Graph}, (∀ x ∈ c.alphabet, ∃ y, x = f y) → ∀ p ∈ pairsOf c.alphabet, ∃ x, p = (f x, f x) := by
      intro f c hc p hp
      obtain ⟨h1, h2⟩ := mem_pairsOf.mp hp
      obtain ⟨y, hy⟩ := hc _ h2
      exact ⟨y, Prod.ext hy (h1 ▸ hy)⟩
    have ta := tmem (f := encodeFirst) (c := a) fun x hx => by
      obtain ⟨p, _, _, e⟩ := (sa.alphabet x).mp hx
      exact ⟨p.1, e⟩
    have tb := tmem (f := encodeSecond) (c := b) fun x hx => by
      obtain ⟨p, _, _, e⟩ := (sb.alphabet x).mp hx
      exact ⟨p.1, e⟩
    have hne12 : ∀ x y, encodeFirst x ≠ encodeSecond y := fun x y e => absurd (congrArg (fun l : List Char => l[1]?) e) (by
      show some '1' ≠ some '2'
      decide)
    have costr : ∀ k w, Cost (B.optimize r) k w ↔ ∃ l₁ l₂ w₁ w₂, Cost g₁ l₁ w₁ ∧ Cost h₁ l₂ w₂ ∧
        Interleaved (l₁.map (tag encodeFirst)) (l₂.map (tag encodeSecond)) k ∧ w₁ + w₂ ≤ w := by
      intro k w
      rw [ro.cost, cr]
      simp only [csa, csb]
      constructor
      · rintro ⟨w₁, w₂, ⟨l₁, n₁, h1, h2⟩, ⟨l₂, n₂, h3, h4⟩, h5⟩
        refine ⟨l₁, l₂, w₁, w₂, h1, h3, interleaved_of_inserted hne12 ta tb ?_ ?_ h2 h4, h5⟩
        · intro p hp
          obtain ⟨q, _, rfl⟩ := List.mem_map.mp hp
          exact ⟨q.1, rfl⟩
        · intro p hp
          obtain ⟨q, _, rfl⟩ := List.mem_map.mp hp
          exact ⟨q.1, rfl⟩
      · rintro ⟨l₁, l₂, w₁, w₂, h1, h3, h4, h5⟩
        obtain ⟨⟨n₁, h6⟩, ⟨n₂, h7⟩⟩ := inserted_of_interleaved (ps := pairsOf a.alphabet) (ps' := pairsOf b.alphabet) h4
          (fun p hp => by
            obtain ⟨q, hq, rfl⟩ := List.mem_map.mp hp
            refine mem_pairsOf.mpr ⟨rfl, (sa.alphabet _).mpr ⟨q, h1.labels q hq, fun e => ?_, rfl⟩⟩
            have hs := h1.stripped
            rw [← hs, mem_strip] at hq
            exact hq.2 ((recognizer_eps r1 (h1.labels q hq.1)).mp e))
          (fun p hp => by
            obtain ⟨q, hq, rfl⟩ := List.mem_map.mp hp
            refine mem_pairsOf.mpr ⟨rfl, (sb.alphabet _).mpr ⟨q, h3.labels q hq, fun e => ?_, rfl⟩⟩
            have hs := h3.stripped
            rw [← hs, mem_strip] at hq
            exact hq.2 ((recognizer_eps r2 (h3.labels q hq.1)).mp e))
        exact ⟨w₁, w₂, ⟨l₁, n₁, h1, h6⟩, ⟨l₂, n₂, h3, h7⟩, h5⟩
    have accz : ∀ l w, Accepts (convert z) l w ↔ ∃ l₀, Accepts (B.optimize r) l₀ w ∧ l = l₀.map (coded decode) := by
      intro l w
      rw [lf.accepts, ← lz.accepts, cd.accepts]
      simp only [lo.accepts]
    have stripd : ∀ l : List (Sym × Sym), (∀ p ∈ l, HasLabel (B.optimize r) p) → strip (l.map (coded decode)) = (strip l).map (coded decode) := by
      intro l hl
      induction l with
      | nil => rfl
      | cons p l ih =>
        have ih := ih fun q hq => hl q (by simp [hq])
        rw [List.map_cons]
        rcases labo p ((lo.label p).mpr (hl p (by simp))) with rfl | ⟨q, hq, h0, rfl⟩ | ⟨q, hq, h0, rfl⟩
        · rw [coded_eps, strip_cons_eps, strip_cons_eps, ih]
        · rw [strip_cons (p := tag encodeFirst q) (fun e => tagFirst.eps _ (congrArg Prod.fst e)), List.map_cons, dec1 q hq,
            strip_cons (fun e => h0 (congrArg Prod.fst e)), ih]
        · rw [strip_cons (p := tag encodeSecond q) (fun e => tagSecond.eps _ (congrArg Prod.fst e)), List.map_cons, dec2 q hq,
            strip_cons (fun e => h0 (congrArg Prod.fst e)), ih]
    have costz : Cost (convert z) k w ↔ ∃ k₀, Cost (B.optimize r) k₀ w ∧ k = k₀.map (coded decode) := by
      constructor
      · rintro ⟨l, v, h1, rfl, h2⟩
        obtain ⟨l₀, h3, rfl⟩ := (accz _ _).mp h1
        refine ⟨strip l₀, ⟨l₀, v, h3, rfl, h2⟩, stripd l₀ ?_⟩
        obtain ⟨_, _, _, hp, _⟩ := h3
        exact fun p hp' => path_labels hp p hp'
      · rintro ⟨_, ⟨l₀, v, h3, rfl, h2⟩, rfl⟩
        refine ⟨_, v, (accz _ _).mpr ⟨l₀, h3, rfl⟩, stripd l₀ ?_, h2⟩
        obtain ⟨_, _, _, hp, _⟩ := h3
        exact fun p hp' => path_labels hp p hp'
    rw [costz]
    have mapd : ∀ {f : Sym → Sym} {c : Graph}, (∀ q, HasLabel c q → coded decode (tag f q) = q) → ∀ l : List (Sym × Sym),
        (∀ p ∈ l, HasLabel c p) → (l.map (tag f)).map (coded decode) = l := by
      intro f c hc l hl
      rw [List.map_map]
      conv => rhs; rw [← List.map_id l]
      exact List.map_congr_left fun p hp => hc p (hl p hp)
    constructor
    · rintro ⟨k₀, h1, rfl⟩
      obtain ⟨l₁, l₂, w₁, w₂, h2, h3, h4, h5⟩ := (costr _ _).mp h1
      refine ⟨l₁, l₂, w₁, w₂, h2, h3, ?_, h5⟩
      have := h4.map (coded decode)
      rwa [mapd dec1 l₁ h2.labels, mapd dec2 l₂ h3.labels] at this
    · rintro ⟨l₁, l₂, w₁, w₂, h2, h3, h4, h5⟩
      obtain ⟨k₀, h6, h7⟩ := h4.lift (F := tag encodeFirst) (G := tag encodeSecond) (D := coded decode)
        (fun p hp => dec1 p (h2.labels p hp)) (fun p hp => dec2 p (h3.labels p hp))
      exact ⟨k₀, (costr _ _).mpr ⟨l₁, l₂, w₁, w₂, h2, h3, h6, h5⟩, h7.symm⟩

end Hfst.Trans
