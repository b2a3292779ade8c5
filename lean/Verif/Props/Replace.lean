import Verif.Props.TwoLevel

/-!
# C78: replacement without contexts
-/
namespace Hfst.Trans
open Hfst.Basic Hfst.Lexc

/-- The string as a sequence of identity pairs. -/
def same (s : List Sym) : List (Sym × Sym) := s.map fun x => (x, x)

/-- `Rewrites` for sequences of pairs. -/
inductive Pieces (N : List (Sym × Sym) → Prop) (T : List (Sym × Sym) → Int → Prop) : List (Sym × Sym) → Int → Prop
  | rest {n : List (Sym × Sym)} {w : Int} : N n → 0 ≤ w → Pieces N T n w
  | more {n u l : List (Sym × Sym)} {v w w' : Int} : N n → T u v → Pieces N T l w → v + w ≤ w' → Pieces N T (n ++ u ++ l) w'

theorem pieces_iff {N : List (Sym × Sym) → Prop} {T : List (Sym × Sym) → Int → Prop} {l : List (Sym × Sym)} {w : Int} :
    Cat (Star (Cat (fun l w => N l ∧ 0 ≤ w) T)) (fun l w => N l ∧ 0 ≤ w) l w ↔ Pieces N T l w := by
  constructor
  · rintro ⟨l₁, l₂, w₁, w₂, h1, ⟨h2, h3⟩, rfl, hw⟩
    induction h1 generalizing w with
    | nil h => exact .rest h2 (by omega)
    | cons hL _ ih =>
      obtain ⟨n, u, x, y, ⟨hn, hx⟩, hu, rfl, hxy⟩ := hL
      have := Pieces.more (w' := w) hn hu (ih (w := w - y) (by omega)) (by omega)
      simpa using this
  · intro h
    induction h with
    | rest hn hw => exact ⟨[], _, 0, 0, .nil (Int.le_refl _), ⟨hn, Int.le_refl _⟩, rfl, hw⟩
    | more hn hu _ hw ih =>
      obtain ⟨l₁, l₂, w₁, w₂, h1, h2, rfl, h3⟩ := ih
      exact ⟨_ ++ l₁, l₂, _ + w₁, w₂, .cons ⟨_, _, 0, _, ⟨hn, Int.le_refl _⟩, hu, rfl, Int.le_refl _⟩ h1, h2, by simp, by omega⟩

/-- The sequence is over the alphabet and has no part in `P`. -/
def Free (P : List (Sym × Sym) → Prop) (al n : List (Sym × Sym)) : Prop := Over al n ∧ ∀ a b c, n = a ++ b ++ c → ¬ P b

section
variable {B : Backend} (hB : B.Ok)
include hB

/-- `replace` in terms of sequences of pairs: pieces without a string of the chosen side of the mapping, with the mapping in
between. -/
theorem replace_pairs (t : Graph) (ut : Usual t) (pt : Plain t) (al : List (Sym × Sym)) (la : Literal al) (up optional : Bool) :
    ∃ r, replace B t up optional al = .ok r ∧ Usual r ∧ Plain r ∧ ∀ l w, Means r l w ↔
      Pieces (Free (fun b => ∃ u v, Means t u v ∧ b = same (if up then ins u else outs u)) al) (Means t) l w ∨
      (optional = true ∧ Over al l ∧ 0 ≤ w) := by
  have hproj : Den (if up then inputProject B t else outputProject B t)
      (fun l w => ∃ l', Means t l' w ∧ l = same (if up then ins l' else outs l')) := by
    cases up
    · obtain ⟨h1, h2, _, h4⟩ := C73_outputProject hB t ut
      exact ⟨h1, pt.mono fun x hx => (h2 x).mp hx, h4⟩
    · obtain ⟨h1, h2, _, h4⟩ := C73_inputProject hB t ut
      exact ⟨h1, pt.mono fun x hx => (h2 x).mp hx, h4⟩
  obtain ⟨u, e1, du⟩ := pairSet_cyclic la
  obtain ⟨a, e2, da⟩ := du.concat hB hproj
  obtain ⟨b, e3, db⟩ := da.concat hB du
  obtain ⟨n, e4, dn⟩ := du.subtract hB db
  have dn : Den n fun l w => Free (fun b => ∃ u v, Means t u v ∧ b = same (if up then ins u else outs u)) al l ∧ 0 ≤ w := by
    refine dn.congr fun l w => ?_
    rw [cat_any]
    simp only [cat_any (L := fun l w => Over al l ∧ 0 ≤ w), over_any]
    constructor
    · rintro ⟨⟨ho, hw⟩, hn⟩
      refine ⟨⟨ho, ?_⟩, hw⟩
      rintro x y z rfl ⟨u, v, hu, rfl⟩
      obtain ⟨o1, o2⟩ := over_append.mp ho
      exact hn ⟨_, z, rfl, ⟨x, _, rfl, (over_append.mp o1).1, v, u, hu, rfl⟩, o2⟩
    · rintro ⟨⟨ho, hf⟩, hw⟩
      refine ⟨⟨ho, hw⟩, ?_⟩
      rintro ⟨_, z, rfl, ⟨x, y, rfl, _, v, u, hu, e⟩, _⟩
      exact hf x y z rfl ⟨u, v, hu, e⟩
  obtain ⟨r1, e5, d1⟩ := dn.concat hB (.self ut pt)
  obtain ⟨r2, e6, d2⟩ := (d1.star hB).concat hB dn
  have d2 := d2.congr fun l w => pieces_iff
  cases optional
  · refine ⟨r2, ?_, d2.usual, d2.plain, fun l w => ?_⟩
    · unfold replace
      simp only [e1, e2, e3, e4, e5, e6, Outcome.bind]
      rfl
    · rw [d2.means]
      simp
  · obtain ⟨r3, e7, d3⟩ := d2.disjunct hB du
    refine ⟨r3, ?_, d3.usual, d3.plain, fun l w => ?_⟩
    · unfold replace
      simp only [e1, e2, e3, e4, e5, e6, Outcome.bind]
      exact e7
    · rw [d3.means]
      simp

end

/-! ## Strings -/

theorem same_mem {syms : List Sym} {n : List (Sym × Sym)} (h : Over (same syms) n) : n = same (n.map Prod.fst) ∧
    ∀ x ∈ n.map Prod.fst, x ∈ syms := by
  induction n with
  | nil => exact ⟨rfl, by simp⟩
  | cons p n ih =>
    obtain ⟨h1, h2⟩ := ih fun q hq => h q (by simp [hq])
    obtain ⟨x, hx, e⟩ := List.mem_map.mp (h p (by simp))
    subst e
    refine ⟨?_, ?_⟩
    · rw [List.map_cons]
      show _ = (x, x) :: same (n.map Prod.fst)
      rw [← h1]
    · intro y hy
      rcases List.mem_cons.mp hy with rfl | hy
      · exact hx
      · exact h2 y hy

theorem over_same {syms s : List Sym} : Over (same syms) (same s) ↔ ∀ x ∈ s, x ∈ syms := by
  constructor
  · intro h x hx
    obtain ⟨y, hy, e⟩ := List.mem_map.mp (h (x, x) (List.mem_map.mpr ⟨x, hx, rfl⟩))
    cases e
    exact hy
  · intro h p hp
    obtain ⟨x, hx, rfl⟩ := List.mem_map.mp hp
    exact List.mem_map.mpr ⟨x, h x hx, rfl⟩

theorem same_inj {s t : List Sym} (h : same s = same t) : s = t := by
  have := congrArg (List.map Prod.fst) h
  simpa [same, Function.comp_def] using this

theorem ins_same {s : List Sym} (h : epsilon ∉ s) : ins (same s) = s := by
  unfold ins same
  rw [List.map_map]
  have : (Prod.fst ∘ fun x : Sym => (x, x)) = id := rfl
  rw [this, List.map_id, List.filter_eq_self]
  intro x hx
  exact decide_eq_true fun e => h (e ▸ hx)

theorem outs_same {s : List Sym} (h : epsilon ∉ s) : outs (same s) = s := by
  unfold outs same
  rw [List.map_map]
  have : (Prod.snd ∘ fun x : Sym => (x, x)) = id := rfl
  rw [this, List.map_id, List.filter_eq_self]
  intro x hx
  exact decide_eq_true fun e => h (e ▸ hx)

theorem same_append (a b : List Sym) : same (a ++ b) = same a ++ same b := by simp [same]

/-- A sequence over identity pairs without parts in `P` is a string without parts in `P`. -/
theorem free_iff {D : List Sym → Prop} {syms : List Sym} {n : List (Sym × Sym)} :
    Free (fun b => ∃ s, D s ∧ b = same s) (same syms) n ↔ ∃ s, n = same s ∧ Untouched D syms s := by
  constructor
  · rintro ⟨h1, h2⟩
    obtain ⟨h3, h4⟩ := same_mem h1
    refine ⟨_, h3, h4, ?_⟩
    intro a b c e hb
    refine h2 (same a) (same b) (same c) ?_ ⟨b, hb, rfl⟩
    rw [h3, e, same_append, same_append]
  · rintro ⟨s, rfl, h1, h2⟩
    refine ⟨over_same.mpr h1, ?_⟩
    rintro a _ c e ⟨b, hb, rfl⟩
    have hl : s = (a ++ same b ++ c).map Prod.fst := by
      rw [← e]
      simp [same, Function.comp_def]
    refine h2 (a.map Prod.fst) b (c.map Prod.fst) ?_ hb
    rw [hl]
    simp [same, Function.comp_def]

section
variable {B : Backend} (hB : B.Ok)
include hB

/-- C78: `replace_up` and `replace_down` without a context, for an alphabet of symbols that are mapped to themselves.  The rule maps
`s` to `s'` exactly if `s'` comes from `s` by replacing some parts according to the mapping, where the parts in between are over
the alphabet and have no part that the mapping accepts as input (`replace_up`) or gives as output (`replace_down`); if the rule is
optional, also a string over the alphabet to itself.  The weights are those of the mapping. -/
theorem C78_replace (t : Graph) (ut : Usual t) (pt : Plain t) (syms : List Sym)
    (hs : ∀ x ∈ syms, x ≠ [] ∧ isSpecial x = false) (up optional : Bool) :
    ∃ r, replace B t up optional (syms.map fun x => (x, x)) = .ok r ∧ Usual r ∧ Plain r ∧ ∀ s s' w, Relates r s s' w ↔
      Rewrites (fun u => ∃ u' v, if up then Relates t u u' v else Relates t u' u v) syms (Relates t) s s' w ∨
      (optional = true ∧ s' = s ∧ (∀ x ∈ s, x ∈ syms) ∧ 0 ≤ w) := by
  have hspec : ∀ x ∈ syms, x ≠ epsilon := by
    rintro x hx rfl
    exact absurd (hs _ hx).2 (by decide)
  have la : Literal (same syms) := by
    rintro p hp
    obtain ⟨x, hx, rfl⟩ := List.mem_map.mp hp
    obtain ⟨h1, h2⟩ := hs x hx
    refine ⟨fun e => hspec x hx (congrArg Prod.fst e), h1, h1, ?_, ?_⟩ <;> (intro e; dsimp only at e; rw [h2] at e; cases e)
  obtain ⟨r, e, ur, pr, hr⟩ := replace_pairs hB t ut pt (same syms) la up optional
  refine ⟨r, e, ur, pr, fun s s' w => ?_⟩
  have hD : (fun b => ∃ u v, Means t u v ∧ b = same (if up then ins u else outs u)) =
      fun b => ∃ s, (∃ u' v, if up then Relates t s u' v else Relates t u' s v) ∧ b = same s := by
    funext b
    refine propext ⟨?_, ?_⟩
    · rintro ⟨u, v, hu, rfl⟩
      cases up
      · exact ⟨outs u, ⟨ins u, v, u, hu, rfl, rfl⟩, rfl⟩
      · exact ⟨ins u, ⟨outs u, v, u, hu, rfl, rfl⟩, rfl⟩
    · rintro ⟨s, ⟨u', v, h⟩, rfl⟩
      cases up
      · obtain ⟨u, hu, _, rfl⟩ := h
        exact ⟨u, v, hu, rfl⟩
      · obtain ⟨u, hu, rfl, _⟩ := h
        exact ⟨u, v, hu, rfl⟩
  rw [hD] at hr
  have heps : ∀ {D : List Sym → Prop} {n : List Sym}, Untouched D syms n → epsilon ∉ n := fun h hm => hspec _ (h.1 _ hm) rfl
  constructor
  · rintro ⟨l, hl, rfl, rfl⟩
    rcases (hr l w).mp hl with h | ⟨h1, h2, h3⟩
    · refine .inl ?_
      clear hl
      induction h with
      | rest hn hw =>
        obtain ⟨n, rfl, hm⟩ := free_iff.mp hn
        rw [ins_same (heps hm), outs_same (heps hm)]
        exact .rest hm hw
      | more hn hu _ hw ih =>
        obtain ⟨n, rfl, hm⟩ := free_iff.mp hn
        rw [ins_append, ins_append, outs_append, outs_append, ins_same (heps hm), outs_same (heps hm)]
        exact .more hm ⟨_, hu, rfl, rfl⟩ ih hw
    · obtain ⟨h4, h5⟩ := same_mem h2
      have h6 : epsilon ∉ l.map Prod.fst := fun hm => hspec _ (h5 _ hm) rfl
      refine .inr ⟨h1, ?_, ?_, h3⟩
      · rw [h4, ins_same h6, outs_same h6]
      · rw [h4, ins_same h6]
        exact h5
  · rintro (h | ⟨h1, rfl, h2, h3⟩)
    · have : ∃ l, Pieces (Free (fun b => ∃ s, (∃ u' v, if up then Relates t s u' v else Relates t u' s v) ∧ b = same s) (same syms))
          (Means t) l w ∧ ins l = s ∧ outs l = s' := by
        induction h with
        | rest hn hw => exact ⟨_, .rest (free_iff.mpr ⟨_, rfl, hn⟩) hw, ins_same (heps hn), outs_same (heps hn)⟩
        | more hn hu _ hw ih =>
          obtain ⟨l, hl, rfl, rfl⟩ := ih
          obtain ⟨u, hu, rfl, rfl⟩ := hu
          refine ⟨_, .more (free_iff.mpr ⟨_, rfl, hn⟩) hu hl hw, ?_, ?_⟩
          · rw [ins_append, ins_append, ins_same (heps hn)]
          · rw [outs_append, outs_append, outs_same (heps hn)]
      obtain ⟨l, hl, h4, h5⟩ := this
      exact ⟨l, (hr l w).mpr (.inl hl), h4, h5⟩
    · have h6 : epsilon ∉ s' := fun hm => hspec _ (h2 _ hm) rfl
      exact ⟨same s', (hr _ w).mpr (.inr ⟨h1, over_same.mpr h2, h3⟩), ins_same h6, outs_same h6⟩

/-- C78: `left_replace_up` is the inverse. -/
theorem C78_left (t : Graph) (ut : Usual t) (pt : Plain t) (syms : List Sym)
    (hs : ∀ x ∈ syms, x ≠ [] ∧ isSpecial x = false) (optional : Bool) :
    ∃ r, leftReplaceUp B t optional (syms.map fun x => (x, x)) = .ok r ∧ Usual r ∧ ∀ s s' w, Relates r s s' w ↔
      Rewrites (fun u => ∃ u' v, Relates t u u' v) syms (Relates t) s' s w ∨
      (optional = true ∧ s = s' ∧ (∀ x ∈ s', x ∈ syms) ∧ 0 ≤ w) := by
  obtain ⟨r, e, ur, _, hr⟩ := C78_replace hB t ut pt syms hs true optional
  obtain ⟨u', _, hi⟩ := C73_invert hB r ur
  refine ⟨B.invert r, ?_, u', fun s s' w => ?_⟩
  · unfold leftReplaceUp
    rw [e]
    rfl
  have := hr s' s w
  simp only [if_true] at this
  rw [← this]
  have hins : ∀ l : List (Sym × Sym), ins (l.map Prod.swap) = outs l ∧ outs (l.map Prod.swap) = ins l := by
    intro l
    unfold ins outs
    simp only [List.map_map]
    exact ⟨rfl, rfl⟩
  constructor
  · rintro ⟨l, hl, rfl, rfl⟩
    exact ⟨_, (hi l w).mp hl, (hins l).1, (hins l).2⟩
  · rintro ⟨l, hl, rfl, rfl⟩
    refine ⟨l.map Prod.swap, (hi _ w).mpr ?_, (hins l).1, (hins l).2⟩
    rw [List.map_map]
    have : (Prod.swap ∘ Prod.swap : Sym × Sym → Sym × Sym) = id := by funext p; rfl
    rw [this, List.map_id]
    exact hl

end

/-- C78: an obligatory rule blocks nothing.  If the mapping does not replace the empty string, every string over the alphabet can
be rewritten. -/
theorem C78_total (D : List Sym → Prop) (syms : List Sym) (T : List Sym → List Sym → Int → Prop)
    (hT : ∀ u, D u → ∃ u' v, T u u' v) (hD : ¬ D []) (s : List Sym) (hs : ∀ x ∈ s, x ∈ syms) : ∃ s' w, Rewrites D syms T s s' w := by
  generalize hn : s.length = n
  induction n using Nat.strongRecOn generalizing s with
  | ind n ih =>
    by_cases hu : Untouched D syms s
    · exact ⟨s, 0, .rest hu (Int.le_refl _)⟩
    · have hex : ∃ k a b c, s = a ++ b ++ c ∧ D b ∧ (a ++ b).length = k := by
        have : ¬ ∀ a b c, s = a ++ b ++ c → ¬ D b := fun h => hu ⟨hs, h⟩
        simp only [not_forall, not_not] at this
        obtain ⟨a, b, c, e, hb⟩ := this
        exact ⟨_, a, b, c, e, hb, rfl⟩
      classical
      obtain ⟨a, b, c, e, hb, hk⟩ := Nat.find_spec hex
      have hmin := fun m (h : m < Nat.find hex) => Nat.find_min hex h
      have hb0 : b ≠ [] := fun h => hD (h ▸ hb)
      have hlen : 0 < b.length := List.length_pos_iff.mpr hb0
      obtain ⟨s', w, hr⟩ := ih c.length (by rw [← hn, e]; simp; omega) c (fun x hx => hs x (by rw [e]; simp [hx])) rfl
      obtain ⟨u', v, ht⟩ := hT b hb
      refine ⟨a ++ u' ++ s', v + w, ?_⟩
      rw [e]
      refine .more ⟨fun x hx => hs x (by rw [e]; simp [hx]), ?_⟩ ht hr (Int.le_refl _)
      rintro x y z rfl hy
      refine hmin (x ++ y).length ?_ ⟨x, y, z ++ b ++ c, by rw [e]; simp, hy, rfl⟩
      rw [← hk]
      simp
      omega

/-- The same for the rule: every string over the alphabet has an image. -/
theorem C78_total_rule {B : Backend} (hB : B.Ok) (t : Graph) (ut : Usual t) (pt : Plain t) (syms : List Sym)
    (hs : ∀ x ∈ syms, x ≠ [] ∧ isSpecial x = false) (optional : Bool) (he : ∀ s' v, ¬ Relates t [] s' v) :
    ∃ r, replace B t true optional (syms.map fun x => (x, x)) = .ok r ∧ ∀ s, (∀ x ∈ s, x ∈ syms) → ∃ s' w, Relates r s s' w := by
  obtain ⟨r, e, _, _, h⟩ := C78_replace hB t ut pt syms hs true optional
  refine ⟨r, e, fun s hsy => ?_⟩
  obtain ⟨s', w, hr⟩ := C78_total (fun u => ∃ u' v, Relates t u u' v) syms (Relates t) (fun u h => h)
    (fun ⟨u', v, h⟩ => he u' v h) s hsy
  exact ⟨s', w, (h s s' w).mpr (.inl (by simpa using hr))⟩

/-- C78 (disagreement): if the mapping replaces the empty string, the obligatory rule accepts nothing at all. -/
theorem C78_total_violated {B : Backend} (hB : B.Ok) (t : Graph) (ut : Usual t) (pt : Plain t) (syms : List Sym)
    (hs : ∀ x ∈ syms, x ≠ [] ∧ isSpecial x = false) (he : ∃ s' v, Relates t [] s' v) :
    ∃ r, replace B t true false (syms.map fun x => (x, x)) = .ok r ∧ ∀ s s' w, ¬ Relates r s s' w := by
  obtain ⟨r, e, _, _, h⟩ := C78_replace hB t ut pt syms hs true false
  refine ⟨r, e, fun s s' w hr => ?_⟩
  rcases (h s s' w).mp hr with hr | ⟨h1, _⟩
  · cases hr with
    | rest hn _ => exact hn.2 [] [] _ (by simp; rfl) (by simpa using he)
    | more hn _ _ _ => exact hn.2 [] [] _ (by simp; rfl) (by simpa using he)
  · cases h1

/-- C78: an alphabet with an empty symbol is refused. -/
theorem C78_throws (B : Backend) (t : Graph) (up optional : Bool) (al : List (Sym × Sym)) (hal : ∃ p ∈ al, p.1 = [] ∨ p.2 = []) :
    replace B t up optional al = .throws ∧ leftReplaceUp B t optional al = .throws := by
  have key : pairSet al true = .throws := by
    obtain ⟨p, hp, e⟩ := hal
    unfold pairSet
    rw [if_pos]
    simp only [List.any_eq_true, Bool.or_eq_true, List.isEmpty_iff]
    exact ⟨p, hp, e⟩
  have h : ∀ up, replace B t up optional al = .throws := by
    intro up
    unfold replace
    simp only [key, Outcome.bind]
  refine ⟨h up, ?_⟩
  unfold leftReplaceUp
  rw [h true]
  rfl

/-! ## Examples -/

theorem pair_relates {x y : Sym} (hx : isSpecial x = false) (hy : isSpecial y = false) (s s' : List Sym) (w : Int) :
    Relates (single x y) s s' w ↔ 0 ≤ w ∧ s = [x] ∧ s' = [y] := by
  have hn : ∀ {z u : Sym}, isSpecial z = false → isSpecial u = true → z ≠ u := by
    rintro z u h1 h2 rfl
    rw [h1] at h2
    cases h2
  have hm : ∀ l w, Means (single x y) l w ↔ 0 ≤ w ∧ l = [(x, y)] := by
    intro l w
    rw [single_means fun e => hn (u := epsilon) hx (by decide) (congrArg Prod.fst e)]
    refine and_congr_right fun _ => ?_
    have hst : ∀ q, St [epsilon, unknown, identity, x, y] (x, y) q ↔ q = (x, y) := fun q =>
      st_literal ⟨hn hx (by decide), hn hx (by decide)⟩ ⟨hn hy (by decide), hn hy (by decide)⟩
    constructor
    · rintro ⟨q, rfl, hq⟩
      rw [(hst q).mp hq]
    · rintro rfl
      exact ⟨_, rfl, (hst _).mpr rfl⟩
  have h2 : ins [(x, y)] = [x] ∧ outs [(x, y)] = [y] := by
    have e1 : x ≠ epsilon := hn hx (by decide)
    have e2 : y ≠ epsilon := hn hy (by decide)
    simp [ins, outs, e1, e2]
  constructor
  · rintro ⟨l, hl, rfl, rfl⟩
    obtain ⟨hw, rfl⟩ := (hm l w).mp hl
    exact ⟨hw, h2.1, h2.2⟩
  · rintro ⟨hw, rfl, rfl⟩
    exact ⟨_, (hm _ w).mpr ⟨hw, rfl⟩, h2.1, h2.2⟩

/-- `a -> b` over the alphabet `a`, `b`, `c` with the reference back-end: `a c a` gives `b c b`, and `a` does not give `a`, unless
the rule is optional. -/
example : ∃ r o, replace reference (single ['a'] ['b']) true false [(['a'], ['a']), (['b'], ['b']), (['c'], ['c'])] = .ok r ∧
    replace reference (single ['a'] ['b']) true true [(['a'], ['a']), (['b'], ['b']), (['c'], ['c'])] = .ok o ∧
    Relates r [['a'], ['c'], ['a']] [['b'], ['c'], ['b']] 0 ∧ (∀ w, ¬ Relates r [['a']] [['a']] w) ∧
    Relates o [['a']] [['a']] 0 := by
  have us : Usual (single ['a'] ['b']) := single_usual (by decide) (by decide) (by decide)
  have ps : Plain (single ['a'] ['b']) := single_plain (by decide) (by decide)
  have hab := pair_relates (x := ['a']) (y := ['b']) (by decide) (by decide)
  obtain ⟨r, e1, _, _, h1⟩ := C78_replace reference_ok _ us ps [['a'], ['b'], ['c']] (by decide) true false
  obtain ⟨o, e2, _, _, h2⟩ := C78_replace reference_ok _ us ps [['a'], ['b'], ['c']] (by decide) true true
  have hu : ∀ {n : List Sym}, (∀ x ∈ n, x ∈ [['b'], ['c']]) →
      Untouched (fun u => ∃ u' v, if true then Relates (single ['a'] ['b']) u u' v else Relates (single ['a'] ['b']) u' u v)
        [['a'], ['b'], ['c']] n := by
    intro n hn
    refine ⟨fun x hx => List.mem_cons_of_mem _ (hn x hx), ?_⟩
    rintro x y z rfl ⟨u', v, h⟩
    obtain ⟨_, rfl, _⟩ := (hab _ _ _).mp h
    exact absurd (hn ['a'] (by simp)) (by decide)
  refine ⟨r, o, e1, e2, (h1 _ _ _).mpr (.inl ?_), ?_, (h2 _ _ _).mpr (.inr ⟨rfl, rfl, by decide, by decide⟩)⟩
  · exact .more (n := []) (u := [['a']]) (u' := [['b']]) (s := [['c'], ['a']]) (s' := [['c'], ['b']]) (v := 0) (w := 0)
      (hu (by simp)) ((hab _ _ _).mpr ⟨by decide, rfl, rfl⟩)
      (.more (n := [['c']]) (u := [['a']]) (u' := [['b']]) (s := []) (s' := []) (v := 0) (w := 0)
        (hu (by decide)) ((hab _ _ _).mpr ⟨by decide, rfl, rfl⟩) (.rest (hu (by simp)) (by decide)) (by decide)) (by decide)
  · intro w h
    rcases (h1 _ _ _).mp h with h | ⟨h, _⟩
    · generalize e : [['a']] = s at h
      generalize e' : s = s' at h
      subst e'
      have : ∀ s s', Rewrites (fun u => ∃ u' v, if true then Relates (single ['a'] ['b']) u u' v else
          Relates (single ['a'] ['b']) u' u v) [['a'], ['b'], ['c']] (Relates (single ['a'] ['b'])) s s' w →
          s = [['a']] → s' = [['a']] → False := by
        rintro s s' hr h3 h4
        cases hr with
        | rest hn _ =>
          subst h3
          exact hn.2 [] [['a']] [] rfl ⟨[['b']], 0, (hab _ _ _).mpr ⟨by decide, rfl, rfl⟩⟩
        | more _ ht _ _ =>
          obtain ⟨_, rfl, rfl⟩ := (hab _ _ _).mp ht
          have : (['b'] : Sym) ∈ [(['a'] : Sym)] := by
            rw [← h4]
            simp
          exact absurd this (by decide)
      exact this _ _ h e.symm e.symm
    · cases h

/-- The hypothesis of `C78_total_violated` is met by the mapping of the empty string to `a`. -/
example : ∃ r, replace reference (single epsilon ['a']) true false [(['a'], ['a'])] = .ok r ∧ ∀ s s' w, ¬ Relates r s s' w :=
  C78_total_violated reference_ok _ (single_usual (by decide) (by decide) (by decide)) (single_plain (by decide) (by decide))
    [['a']] (by decide) ⟨[['a']], 0, [(epsilon, ['a'])], (single_means (by decide) _ _).mpr ⟨by decide, _, rfl,
      (st_literal (by decide) (by decide)).mpr rfl⟩, by decide, by decide⟩

end Hfst.Trans
