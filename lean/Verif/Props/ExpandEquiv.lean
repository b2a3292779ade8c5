import Verif.Spec.ExpandEquiv
import Mathlib.Tactic.ByContra

/-!
# C97: hfst-expand-equivalences lets symbols be written as their equivalents
-/
namespace Hfst.Expand
open Hfst.StdString Hfst.Basic

/-! ## Lines -/

/-- The fields of a text without a newline (tools/src/hfst-expand-equivalences.cc:266-314). -/
def pieces : Str → List Str
  | [] => [[]]
  | c :: cs =>
    if c = '\t' then [] :: pieces cs
    else
      match pieces cs with
      | [] => []
      | f :: fs => (c :: f) :: fs

theorem pieces_ne (s : Str) : ∃ f fs, pieces s = f :: fs := by
  induction s with
  | nil => exact ⟨[], [], rfl⟩
  | cons c cs ih =>
    obtain ⟨f, fs, h⟩ := ih
    unfold pieces
    split
    · exact ⟨_, _, rfl⟩
    · rw [h]; exact ⟨_, _, rfl⟩

theorem joined_cons (f : Str) {fs : List Str} (h : fs ≠ []) : joined (f :: fs) = f ++ '\t' :: joined fs := by
  cases fs with
  | nil => exact absurd rfl h
  | cons g gs => rfl

theorem joined_pieces (s : Str) : joined (pieces s) = s := by
  induction s with
  | nil => rfl
  | cons c cs ih =>
    obtain ⟨f, fs, h⟩ := pieces_ne cs
    unfold pieces
    split
    · rename_i hc
      rw [joined_cons _ (by rw [h]; simp), ih, hc]; rfl
    · rw [h] at ih ⊢
      cases fs with
      | nil => simp only [joined] at ih ⊢; rw [ih]
      | cons g gs =>
        simp only [joined, List.cons_append] at ih ⊢
        rw [ih]

theorem pieces_no_tab (s : Str) : ∀ f ∈ pieces s, '\t' ∉ f := by
  induction s with
  | nil => intro f hf; simp only [pieces, List.mem_singleton] at hf; subst hf; simp
  | cons c cs ih =>
    obtain ⟨f, fs, h⟩ := pieces_ne cs
    unfold pieces
    split
    · intro g hg
      rcases List.mem_cons.1 hg with rfl | hg
      · simp
      · exact ih g hg
    · rename_i hc
      rw [h] at ih ⊢
      intro g hg
      rcases List.mem_cons.1 hg with rfl | hg
      · have := ih f List.mem_cons_self
        intro hm
        rcases List.mem_cons.1 hm with e | e
        · exact hc e.symm
        · exact this e
      · exact ih g (List.mem_cons_of_mem _ hg)

theorem pieces_no_newline (s : Str) (hs : '\n' ∉ s) : ∀ f ∈ pieces s, '\n' ∉ f := by
  induction s with
  | nil => intro f hf; simp only [pieces, List.mem_singleton] at hf; subst hf; simp
  | cons c cs ih =>
    have ih := ih fun h => hs (List.mem_cons_of_mem _ h)
    obtain ⟨f, fs, h⟩ := pieces_ne cs
    unfold pieces
    split
    · intro g hg
      rcases List.mem_cons.1 hg with rfl | hg
      · simp
      · exact ih g hg
    · rw [h] at ih ⊢
      intro g hg
      rcases List.mem_cons.1 hg with rfl | hg
      · intro hm
        rcases List.mem_cons.1 hm with e | e
        · exact hs (e ▸ List.mem_cons_self)
        · exact ih f List.mem_cons_self e
      · exact ih g (List.mem_cons_of_mem _ hg)

theorem pieces_append (f : Str) (hf : '\t' ∉ f) (s : Str) : pieces (f ++ '\t' :: s) = f :: pieces s := by
  induction f with
  | nil => simp [pieces]
  | cons c cs ih =>
    have hc : c ≠ '\t' := fun e => hf (e ▸ List.mem_cons_self)
    rw [List.cons_append]
    conv_lhs => unfold pieces
    rw [if_neg hc, ih fun h => hf (List.mem_cons_of_mem _ h)]

theorem pieces_single (f : Str) (hf : '\t' ∉ f) : pieces f = [f] := by
  induction f with
  | nil => rfl
  | cons c cs ih =>
    have hc : c ≠ '\t' := fun e => hf (e ▸ List.mem_cons_self)
    unfold pieces
    rw [if_neg hc, ih fun h => hf (List.mem_cons_of_mem _ h)]

theorem pieces_joined (f : Str) (fs : List Str) (h : ∀ g ∈ f :: fs, '\t' ∉ g) : pieces (joined (f :: fs)) = f :: fs := by
  induction fs generalizing f with
  | nil => exact pieces_single f (h f List.mem_cons_self)
  | cons g gs ih =>
    rw [joined_cons _ (by simp), pieces_append _ (h f List.mem_cons_self), ih g fun k hk => h k (List.mem_cons_of_mem _ hk)]

theorem joined_no_newline (fs : List Str) (h : ∀ f ∈ fs, '\n' ∉ f) : '\n' ∉ joined fs := by
  induction fs with
  | nil => simp [joined]
  | cons f fs ih =>
    have ih := ih fun g hg => h g (List.mem_cons_of_mem _ hg)
    cases fs with
    | nil => exact h f List.mem_cons_self
    | cons g gs =>
      rw [joined_cons _ (by simp)]
      intro hm
      rcases List.mem_append.1 hm with e | e
      · exact h f List.mem_cons_self e
      · rcases List.mem_cons.1 e with e | e
        · exact absurd e (by decide)
        · exact ih e

theorem line_text {l a b : Str} (ha : '\n' ∉ a) (hb : '\n' ∉ b) (h : Line l a) (h' : Line l b) : a = b := by
  rcases h with rfl | rfl <;> rcases h' with h' | h'
  · exact h'
  · exact absurd (h' ▸ List.mem_append_right _ (List.mem_singleton.2 rfl)) ha
  · exact absurd (h' ▸ List.mem_append_right _ (List.mem_singleton.2 rfl)) hb
  · exact List.append_cancel_right h'

/-- All the fields are added; an empty one ends the program (tools/src/hfst-expand-equivalences.cc:293-323). -/
def addAll {T : Type} (L : Library T) (x : Sym) : List Str → T → Option T
  | [], t => some t
  | f :: fs, t => if f = [] then none else addAll L x fs (addExtension L t x f)

theorem takeWhile_end (cur : Str) (h : '\n' ∉ cur) (nl : Str) (hn : nl = [] ∨ nl = ['\n']) :
    (cur ++ nl).takeWhile (· ≠ '\n') = cur := by
  induction cur with
  | nil => rcases hn with rfl | rfl <;> rfl
  | cons c cs ih =>
    have hc : c ≠ '\n' := fun e => h (e ▸ List.mem_cons_self)
    rw [List.cons_append, List.takeWhile_cons, if_pos (by simpa using hc), ih fun hm => h (List.mem_cons_of_mem _ hm)]

theorem fieldLoop_pieces {T : Type} (L : Library T) (x : Sym) (nl : Str) (hn : nl = [] ∨ nl = ['\n']) (text : Str) (ht : '\n' ∉ text)
    (cur : Str) (hc : '\n' ∉ cur) (t : T) (f : Str) (fs : List Str) (hp : pieces text = f :: fs) :
    fieldLoop L x cur (text ++ nl) t = addAll L x ((cur ++ f) :: fs) t := by
  induction text generalizing cur t f fs with
  | nil =>
    simp only [pieces, List.cons.injEq] at hp
    obtain ⟨rfl, rfl⟩ := hp
    rw [List.append_nil, List.nil_append]
    have key := takeWhile_end cur hc nl hn
    rcases hn with rfl | rfl
    · rw [List.append_nil] at key
      unfold fieldLoop
      simp only [key]
      rfl
    · unfold fieldLoop
      rw [if_neg (by decide)]
      unfold fieldLoop
      simp only [key]
      rfl
  | cons c cs ih =>
    have hcs : '\n' ∉ cs := fun h => ht (List.mem_cons_of_mem _ h)
    have hcn : c ≠ '\n' := fun e => ht (e ▸ List.mem_cons_self)
    obtain ⟨g, gs, hg⟩ := pieces_ne cs
    rw [List.cons_append]
    unfold fieldLoop
    unfold pieces at hp
    by_cases h : c = '\t'
    · rw [if_pos h] at hp ⊢
      rw [List.cons.injEq] at hp
      obtain ⟨rfl, rfl⟩ := hp
      rw [List.append_nil]
      unfold addAll
      split
      · rfl
      · rw [ih hcs [] (by simp) _ g gs hg, hg]; rfl
    · rw [if_neg h] at hp ⊢
      rw [hg] at hp
      simp only [List.cons.injEq] at hp
      obtain ⟨rfl, rfl⟩ := hp
      rw [ih hcs (cur ++ [c]) ?_ t g gs hg]
      · rw [List.append_assoc]; rfl
      · intro hm
        rcases List.mem_append.1 hm with e | e
        · exact hc e
        · rw [List.mem_singleton] at e; exact hcn e.symm

theorem cutTab_pieces (nl : Str) (hn : nl = [] ∨ nl = ['\n']) (text : Str) (f : Str) (fs : List Str) (hp : pieces text = f :: fs) :
    cutTab (text ++ nl) = if fs = [] then none else some (f, joined fs ++ nl) := by
  induction text generalizing f fs with
  | nil =>
    simp only [pieces, List.cons.injEq] at hp
    obtain ⟨rfl, rfl⟩ := hp
    rcases hn with rfl | rfl <;> rfl
  | cons c cs ih =>
    obtain ⟨g, gs, hg⟩ := pieces_ne cs
    rw [List.cons_append]
    unfold cutTab
    unfold pieces at hp
    by_cases h : c = '\t'
    · rw [if_pos h] at hp ⊢
      rw [List.cons.injEq] at hp
      obtain ⟨rfl, rfl⟩ := hp
      rw [if_neg (by rw [hg]; simp), joined_pieces]
    · rw [if_neg h] at hp ⊢
      rw [hg] at hp
      simp only [List.cons.injEq] at hp
      obtain ⟨rfl, rfl⟩ := hp
      rw [ih g gs hg]
      split <;> rfl

section Meaning
variable {T : Type} {L : Library T} {meaning : T → List Sym → List Sym → Prop}

theorem addExtension_meaning (hL : Lawful L meaning) (t : T) (x y : Sym) (hx : x ≠ []) (hy : y ≠ []) (px : Plain x) (py : Plain y)
    (u v : List Sym) : meaning (addExtension L t x y) u v ↔ meaning t u v ∨ (u = strOf x ∧ v = strOf y) := by
  unfold addExtension
  rw [hL.disjunct, hL.pair x y hx hy px py]

/-- The pairs of the relation, as strings (tools/src/hfst-expand-equivalences.cc:232). -/
def One (E : Sym → Sym → Prop) (u v : List Sym) : Prop := ∃ x y, E x y ∧ u = strOf x ∧ v = strOf y

theorem addAll_none (x : Sym) (fs : List Str) (t : T) : addAll L x fs t = none ↔ [] ∈ fs := by
  induction fs generalizing t with
  | nil => simp [addAll]
  | cons f fs ih =>
    unfold addAll
    by_cases hf : f = []
    · simp [hf]
    · rw [if_neg hf, ih, List.mem_cons]
      exact ⟨Or.inr, fun h => h.resolve_left fun e => hf e.symm⟩

theorem addAll_meaning (hL : Lawful L meaning) (x : Sym) (hx : x ≠ []) (px : Plain x) (fs : List Str) (hfs : ∀ f ∈ fs, Plain f) (t t' : T)
    (h : addAll L x fs t = some t') (u v : List Sym) :
    meaning t' u v ↔ meaning t u v ∨ One (fun a b => a = x ∧ b ∈ fs) u v := by
  induction fs generalizing t with
  | nil =>
    simp only [addAll, Option.some.injEq] at h
    subst h
    constructor
    · exact Or.inl
    · rintro (h | ⟨_, _, ⟨_, h⟩, _⟩)
      · exact h
      · cases h
  | cons f fs ih =>
    unfold addAll at h
    by_cases hf : f = []
    · rw [if_pos hf] at h; cases h
    · rw [if_neg hf] at h
      rw [ih (fun g hg => hfs g (List.mem_cons_of_mem _ hg)) _ h,
        addExtension_meaning hL t x f hx hf px (hfs f List.mem_cons_self)]
      constructor
      · rintro ((h | h) | ⟨a, b, ⟨ha, hb⟩, h⟩)
        · exact Or.inl h
        · exact Or.inr ⟨x, f, ⟨rfl, List.mem_cons_self⟩, h⟩
        · exact Or.inr ⟨a, b, ⟨ha, List.mem_cons_of_mem _ hb⟩, h⟩
      · rintro (h | ⟨a, b, ⟨ha, hb⟩, h'⟩)
        · exact Or.inl (Or.inl h)
        · rcases List.mem_cons.1 hb with hb | hb
          · rw [ha, hb] at h'; exact Or.inl (Or.inr h')
          · exact Or.inr ⟨a, b, ⟨ha, hb⟩, h'⟩

theorem fields_iff {l text : Str} (ht : '\n' ∉ text) (hl : Line l text) (x : Str) (ys : List Str) :
    Fields (x :: ys) ∧ Line l (joined (x :: ys)) ↔ pieces text = x :: ys ∧ ∀ p ∈ pieces text, p ≠ [] := by
  constructor
  · rintro ⟨h1, h2⟩
    have e : text = joined (x :: ys) := line_text ht (joined_no_newline _ fun f hf => (h1 f hf).2.2) hl h2
    have e' : pieces text = x :: ys := by rw [e]; exact pieces_joined _ _ fun g hg => (h1 g hg).2.1
    exact ⟨e', fun p hp => (h1 p (e' ▸ hp)).1⟩
  · rintro ⟨h1, h2⟩
    refine ⟨fun f hf => ?_, ?_⟩
    · rw [← h1] at hf
      exact ⟨h2 f hf, pieces_no_tab _ f hf, pieces_no_newline _ ht f hf⟩
    · rw [← h1, joined_pieces]; exact hl

theorem readLine_eq (L : Library T) {l text nl : Str} (ht : '\n' ∉ text) (hn : nl = [] ∨ nl = ['\n']) (hl : l = text ++ nl) (hne : text ≠ [])
    (t : T) (f : Str) (fs : List Str) (hp : pieces text = f :: fs) :
    readLine L l t = if fs = [] then (if text.head? = some '#' then some t else none)
      else if f = [] then none else addAll L f fs t := by
  obtain ⟨c, cs, rfl⟩ : ∃ c cs, text = c :: cs := by
    cases text with
    | nil => exact absurd rfl hne
    | cons c cs => exact ⟨c, cs, rfl⟩
  have hc : c ≠ '\n' := fun e => ht (e ▸ List.mem_cons_self)
  subst hl
  unfold readLine
  rw [if_neg (by simpa using hc), cutTab_pieces nl hn _ f fs hp]
  cases fs with
  | nil => simp
  | cons g gs =>
    simp only [if_neg (List.cons_ne_nil g gs)]
    have hm : ∀ k ∈ g :: gs, k ∈ pieces (c :: cs) := fun k hk => hp ▸ List.mem_cons_of_mem _ hk
    rw [fieldLoop_pieces L f nl hn (joined (g :: gs)) (joined_no_newline _ fun k hk => pieces_no_newline _ ht k (hm k hk)) []
      (by simp) t g gs (pieces_joined _ _ fun k hk => pieces_no_tab _ k (hm k hk))]
    rfl

theorem line_cases {l : Str} (h : FromFile [l]) :
    l = ['\n'] ∨ ∃ text nl, text ≠ [] ∧ '\n' ∉ text ∧ (nl = [] ∨ nl = ['\n']) ∧ l = text ++ nl ∧ Line l text := by
  obtain ⟨h1, text, h2, h3⟩ := h l List.mem_cons_self
  by_cases ht : text = []
  · subst ht
    rcases h3 with h3 | h3
    · exact absurd h3 h1
    · exact Or.inl h3
  · right
    rcases h3 with h3 | h3
    · exact ⟨text, [], ht, h2, Or.inl rfl, by rw [h3, List.append_nil], Or.inl h3⟩
    · exact ⟨text, ['\n'], ht, h2, Or.inr rfl, h3, Or.inr h3⟩

theorem newline_not_fields (x : Str) (ys : List Str) : ¬ (Fields (x :: ys) ∧ Line ['\n'] (joined (x :: ys))) := by
  intro h
  have := (fields_iff (text := []) (by simp) (Or.inr rfl) x ys).1 h
  exact this.2 [] (by simp [pieces]) rfl

theorem readLine_none (L : Library T) {l : Str} (h : FromFile [l]) (t : T) : readLine L l t = none ↔ ¬ InFormat [l] := by
  rcases line_cases h with rfl | ⟨text, nl, hne, ht, hn, hl, hline⟩
  · constructor
    · intro h; cases h
    · intro h; exact absurd (fun l hl => Or.inl (List.mem_singleton.1 hl)) h
  · obtain ⟨f, fs, hp⟩ := pieces_ne text
    rw [readLine_eq L ht hn hl hne t f fs hp]
    have hnl : l ≠ ['\n'] := by
      rintro rfl
      have := line_text ht (by simp) hline (Or.inr rfl : Line ['\n'] [])
      exact hne this
    have tabs : '\t' ∈ l ↔ fs ≠ [] := by
      have hj := joined_pieces text
      rw [hp] at hj
      rw [hl]
      constructor
      · rintro hm rfl
        rcases List.mem_append.1 hm with e | e
        · rw [← hj] at e
          exact pieces_no_tab text f (hp ▸ List.mem_cons_self) e
        · rcases hn with rfl | rfl
          · cases e
          · exact absurd (List.mem_singleton.1 e) (by decide)
      · intro hfs
        rw [← hj, joined_cons _ hfs]
        simp
    have hhead : l.head? = text.head? := by
      rw [hl]
      cases text with
      | nil => exact absurd rfl hne
      | cons c cs => rfl
    have fmt : InFormat [l] ↔ (∃ rest, '\t' ∉ rest ∧ l = '#' :: rest) ∨ (fs ≠ [] ∧ ∀ p ∈ f :: fs, p ≠ []) := by
      constructor
      · intro h
        rcases h l List.mem_cons_self with h | h | ⟨x, y, ys, h⟩
        · exact absurd h hnl
        · exact Or.inl h
        · obtain ⟨h1, h2⟩ := (fields_iff ht hline x (y :: ys)).1 h
          rw [hp] at h1 h2
          rw [List.cons.injEq] at h1
          refine Or.inr ⟨by rw [h1.2]; simp, h2⟩
      · intro h l' hl'
        rw [List.mem_singleton] at hl'
        subst hl'
        rcases h with h | ⟨h1, h2⟩
        · exact Or.inr (Or.inl h)
        · cases fs with
          | nil => exact absurd rfl h1
          | cons g gs => exact Or.inr (Or.inr ⟨f, g, gs, (fields_iff ht hline f (g :: gs)).2 ⟨hp, hp ▸ h2⟩⟩)
    rw [fmt]
    by_cases hfs : fs = []
    · rw [if_pos hfs, ← hhead]
      have nt : '\t' ∉ l := fun hm => tabs.1 hm hfs
      cases l with
      | nil => simp [hfs]
      | cons c cs =>
        by_cases hc : c = '#'
        · subst hc
          simp only [List.head?_cons, if_true]
          constructor
          · intro h; cases h
          · intro h; exact absurd (Or.inl ⟨cs, fun hm => nt (List.mem_cons_of_mem _ hm), rfl⟩) h
        · simp [hfs, hc]
    · rw [if_neg hfs]
      have nc : ¬ ∃ rest, '\t' ∉ rest ∧ l = '#' :: rest := by
        rintro ⟨rest, h1, h2⟩
        have := tabs.2 hfs
        rw [h2] at this
        rcases List.mem_cons.1 this with e | e
        · exact absurd e (by decide)
        · exact h1 e
      by_cases hf : f = []
      · simp [hf, nc]
      · rw [if_neg hf, addAll_none]
        constructor
        · rintro h (h' | h')
          · exact nc h'
          · exact h'.2 [] (List.mem_cons_of_mem _ h) rfl
        · intro h
          by_contra hn
          refine h (Or.inr ⟨hfs, fun p hp => ?_⟩)
          rcases List.mem_cons.1 hp with rfl | hp
          · exact hf
          · rintro rfl; exact hn hp

theorem readLine_meaning (hL : Lawful L meaning) {l : Str} (h : FromFile [l]) (hpl : ∀ x y, Says [l] x y → Plain x ∧ Plain y) (t t' : T)
    (hr : readLine L l t = some t') (u v : List Sym) : meaning t' u v ↔ meaning t u v ∨ One (Says [l]) u v := by
  rcases line_cases h with rfl | ⟨text, nl, hne, ht, hn, hl, hline⟩
  · have e : t = t' := Option.some.inj hr
    subst e
    refine ⟨Or.inl, ?_⟩
    rintro (h | ⟨x, y, ⟨l, hl, ys, h1, h2, _⟩, _⟩)
    · exact h
    · rw [List.mem_singleton] at hl
      subst hl
      exact absurd ⟨h1, h2⟩ (newline_not_fields x ys)
  · have hf : InFormat [l] := by
      by_contra hn
      rw [← readLine_none L h t, hr] at hn
      cases hn
    obtain ⟨f, fs, hp⟩ := pieces_ne text
    have says : ∀ x y, Says [l] x y ↔ x = f ∧ y ∈ fs ∧ ∀ p ∈ f :: fs, p ≠ [] := by
      intro x y
      constructor
      · rintro ⟨l', hl', ys, h1, h2, h3⟩
        rw [List.mem_singleton] at hl'
        subst hl'
        obtain ⟨h4, h5⟩ := (fields_iff ht hline x ys).1 ⟨h1, h2⟩
        rw [hp] at h4 h5
        rw [List.cons.injEq] at h4
        exact ⟨h4.1.symm, h4.2 ▸ h3, h5⟩
      · rintro ⟨rfl, h2, h3⟩
        obtain ⟨h4, h5⟩ := (fields_iff ht hline x fs).2 ⟨hp, hp ▸ h3⟩
        exact ⟨l, List.mem_cons_self, fs, h4, h5, h2⟩
    rw [readLine_eq L ht hn hl hne t f fs hp] at hr
    have one : ∀ E E' : Sym → Sym → Prop, (∀ x y, E x y ↔ E' x y) → (One E u v ↔ One E' u v) := by
      intro E E' h
      constructor
      · rintro ⟨x, y, h1, h2⟩; exact ⟨x, y, (h x y).1 h1, h2⟩
      · rintro ⟨x, y, h1, h2⟩; exact ⟨x, y, (h x y).2 h1, h2⟩
    by_cases hfs : fs = []
    · rw [if_pos hfs] at hr
      split at hr
      · have e : t = t' := Option.some.inj hr
        subst e
        refine ⟨Or.inl, ?_⟩
        rintro (h | ⟨x, y, h1, _⟩)
        · exact h
        · have := ((says x y).1 h1).2.1
          rw [hfs] at this
          cases this
      · cases hr
    · rw [if_neg hfs] at hr
      split at hr
      · cases hr
      · rename_i hf0
        have hall : ∀ p ∈ f :: fs, p ≠ [] := by
          have : ¬ [] ∈ fs := fun hm => by rw [(addAll_none f fs t).2 hm] at hr; cases hr
          intro p hp
          rcases List.mem_cons.1 hp with rfl | hp
          · exact hf0
          · rintro rfl; exact this hp
        have pl : ∀ y ∈ fs, Plain f ∧ Plain y := fun y hy => hpl f y ((says f y).2 ⟨rfl, hy, hall⟩)
        have pf : Plain f := by
          cases fs with
          | nil => exact absurd rfl hfs
          | cons g gs => exact (pl g List.mem_cons_self).1
        rw [addAll_meaning hL f hf0 pf fs (fun y hy => (pl y hy).2) t t' hr]
        rw [one (Says [l]) (fun a b => a = f ∧ b ∈ fs) fun x y => (says x y).trans ⟨fun h => ⟨h.1, h.2.1⟩, fun h => ⟨h.1, h.2, hall⟩⟩]

theorem says_cons (l : Str) (ls : List Str) (x y : Sym) : Says (l :: ls) x y ↔ Says [l] x y ∨ Says ls x y := by
  unfold Says
  simp only [List.mem_cons, List.not_mem_nil, or_false]
  constructor
  · rintro ⟨k, rfl | hk, h⟩
    · exact Or.inl ⟨k, rfl, h⟩
    · exact Or.inr ⟨k, hk, h⟩
  · rintro (⟨k, rfl, h⟩ | ⟨k, hk, h⟩)
    · exact ⟨k, Or.inl rfl, h⟩
    · exact ⟨k, Or.inr hk, h⟩

theorem inFormat_cons (l : Str) (ls : List Str) : InFormat (l :: ls) ↔ InFormat [l] ∧ InFormat ls := by
  constructor
  · intro h
    refine ⟨fun k hk => ?_, fun k hk => h k (List.mem_cons_of_mem _ hk)⟩
    rw [List.mem_singleton] at hk
    exact h k (hk ▸ List.mem_cons_self)
  · rintro ⟨h1, h2⟩ k hk
    rcases List.mem_cons.1 hk with rfl | hk
    · exact h1 k List.mem_cons_self
    · exact h2 k hk

theorem fromFile_cons {l : Str} {ls : List Str} (h : FromFile (l :: ls)) : FromFile [l] ∧ FromFile ls := by
  refine ⟨fun k hk => ?_, fun k hk => h k (List.mem_cons_of_mem _ hk)⟩
  rw [List.mem_singleton] at hk
  exact h k (hk ▸ List.mem_cons_self)

theorem readLines_none (L : Library T) (lines : List Str) (h : FromFile lines) (t : T) :
    readLines L lines t = none ↔ ¬ InFormat lines := by
  induction lines generalizing t with
  | nil =>
    constructor
    · intro h; cases h
    · intro h; exact absurd (fun l hl => by cases hl) h
  | cons l ls ih =>
    obtain ⟨h1, h2⟩ := fromFile_cons h
    rw [inFormat_cons]
    unfold readLines
    cases hr : readLine L l t with
    | none =>
      have := (readLine_none L h1 t).1 hr
      exact ⟨fun _ h => this h.1, fun _ => rfl⟩
    | some t' =>
      have hf : InFormat [l] := by
        by_contra hn
        rw [← readLine_none L h1 t, hr] at hn
        cases hn
      rw [ih h2 t']
      exact ⟨fun h h' => h h'.2, fun h h' => h ⟨hf, h'⟩⟩

theorem readLines_meaning (hL : Lawful L meaning) (lines : List Str) (h : FromFile lines)
    (hpl : ∀ x y, Says lines x y → Plain x ∧ Plain y) (t t' : T) (hr : readLines L lines t = some t') (u v : List Sym) :
    meaning t' u v ↔ meaning t u v ∨ One (Says lines) u v := by
  induction lines generalizing t with
  | nil =>
    have e : t = t' := Option.some.inj hr
    subst e
    refine ⟨Or.inl, ?_⟩
    rintro (h | ⟨_, _, ⟨_, h, _⟩, _⟩)
    · exact h
    · cases h
  | cons l ls ih =>
    obtain ⟨h1, h2⟩ := fromFile_cons h
    unfold readLines at hr
    cases hr' : readLine L l t with
    | none => rw [hr'] at hr; cases hr
    | some t1 =>
      rw [hr'] at hr
      rw [ih h2 (fun x y hs => hpl x y ((says_cons l ls x y).2 (Or.inr hs))) t1 hr,
        readLine_meaning hL h1 (fun x y hs => hpl x y ((says_cons l ls x y).2 (Or.inl hs))) t t1 hr']
      constructor
      · rintro ((h | ⟨x, y, h, h'⟩) | ⟨x, y, h, h'⟩)
        · exact Or.inl h
        · exact Or.inr ⟨x, y, (says_cons l ls x y).2 (Or.inl h), h'⟩
        · exact Or.inr ⟨x, y, (says_cons l ls x y).2 (Or.inr h), h'⟩
      · rintro (h | ⟨x, y, h, h'⟩)
        · exact Or.inl (Or.inl h)
        · rcases (says_cons l ls x y).1 h with h | h
          · exact Or.inl (Or.inr ⟨x, y, h, h'⟩)
          · exact Or.inr ⟨x, y, h, h'⟩

/-! ## Transducers -/

theorem repeated_written (E : Sym → Sym → Prop) (R : List Sym → List Sym → Prop)
    (hR : ∀ u v, R u v ↔ (∃ c, Ordinary c ∧ u = [c] ∧ v = [c]) ∨ One E u v) (u v : List Sym) : Repeated R u v ↔ Written E u v := by
  constructor
  · intro h
    induction h with
    | nil => exact .nil
    | step h _ ih =>
      rcases (hR _ _).1 h with ⟨c, hc, rfl, rfl⟩ | ⟨x, y, he, rfl, rfl⟩
      · exact .keep hc ih
      · exact .change he ih
  · intro h
    induction h with
    | nil => exact .nil
    | @keep c u v hc _ ih => exact Repeated.step (u := [c]) (v := [c]) ((hR _ _).2 (Or.inl ⟨c, hc, rfl, rfl⟩)) ih
    | change he _ ih => exact .step ((hR _ _).2 (Or.inr ⟨_, _, he, rfl, rfl⟩)) ih

theorem applyLevel_meaning (hL : Lawful L meaning) (E : Sym → Sym → Prop) (t : T)
    (ht : ∀ u v, meaning t u v ↔ meaning (L.pair Basic.identity Basic.identity) u v ∨ One E u v) (level : Level) (g : T) (u v : List Sym) :
    meaning (applyLevel L level (L.minimize (L.star (L.minimize t))) g) u v ↔ Expanded E (meaning g) level u v := by
  have hw : ∀ u v, meaning (L.minimize (L.star (L.minimize t))) u v ↔ Written E u v := by
    intro u v
    rw [hL.minimize, hL.star]
    apply repeated_written
    intro u v
    rw [hL.minimize, ht, hL.identity]
  cases level <;> simp only [applyLevel, Expanded, hL.compose, hL.invert, hw]
  constructor
  · rintro ⟨a, h1, b, h2, h3⟩; exact ⟨a, b, h1, h2, h3⟩
  · rintro ⟨a, b, h1, h2, h3⟩; exact ⟨a, h1, b, h2, h3⟩

theorem expandLoop_same (libxml : Bool) (o : Options) (t : T) (left : List Str) (h : extensions L libxml o left = .inl t)
    (h' : extensions L libxml o [] = .inl t) (gs : List T) :
    expandLoop L libxml o left gs = ⟨gs.map fun g => applyLevel L o.level (L.minimize (L.star (L.minimize t))) g, .success⟩ := by
  induction gs generalizing left with
  | nil => rfl
  | cons g gs ih =>
    unfold expandLoop
    rw [h]
    simp only [ih [] h']
    rfl

theorem written_refl (E : Sym → Sym → Prop) (u : List Sym) (hu : ∀ c ∈ u, Ordinary c) : Written E u u := by
  induction u with
  | nil => exact .nil
  | cons c u ih => exact .keep (hu c List.mem_cons_self) (ih fun d hd => hu d (List.mem_cons_of_mem _ hd))

theorem written_none (u v : List Sym) (h : Written (fun _ _ => False) u v) : u = v := by
  induction h with
  | nil => rfl
  | keep _ _ ih => rw [ih]
  | change h => exact h.elim

theorem expanded_none (old : List Sym → List Sym → Prop) (level : Level) (u v : List Sym) (hu : ∀ c ∈ u, Ordinary c)
    (hv : ∀ c ∈ v, Ordinary c) : Expanded (fun _ _ => False) old level u v ↔ old u v := by
  cases level
  · constructor
    · rintro ⟨w, h1, h2⟩; rwa [← written_none _ _ h1]
    · intro h; exact ⟨u, written_refl _ u hu, h⟩
  · constructor
    · rintro ⟨w, h1, h2⟩; rwa [← written_none _ _ h2]
    · intro h; exact ⟨v, h, written_refl _ v hv⟩
  · constructor
    · rintro ⟨w, w', h1, h2, h3⟩; rwa [← written_none _ _ h1, ← written_none _ _ h3]
    · intro h; exact ⟨u, v, written_refl _ u hu, h, written_refl _ v hv⟩

/-- **C97, -f and -t**: every transducer of the archive is written in its order, and accepts exactly the pairs that the old one accepts
with any occurrences of the one symbol written as the other, on the level asked for. -/
theorem C97_single (hL : Lawful L meaning) (libxml : Bool) (x y : Sym) (hx : x ≠ []) (hy : y ≠ []) (px : Plain x) (py : Plain y)
    (level : Level) (gs : List T) :
    ∃ change : T → T,
      expandStream L libxml { source := some x, dest := some y, level := level } gs = ⟨gs.map change, .success⟩ ∧
      ∀ g u v, meaning (change g) u v ↔ Expanded (fun a b => a = x ∧ b = y) (meaning g) level u v := by
  have he : ∀ left, extensions L libxml { source := some x, dest := some y, level := level } left =
      .inl (addExtension L (L.pair Basic.identity Basic.identity) x y) := by
    intro left
    have hxy : ¬ (x = [] ∨ y = []) := by simp [hx, hy]
    simp only [extensions, if_neg hxy]
  refine ⟨_, expandLoop_same libxml { source := some x, dest := some y, level := level } _ _ (he _) (he _) gs, fun g u v => ?_⟩
  apply applyLevel_meaning hL
  intro u v
  rw [addExtension_meaning hL _ x y hx hy px py]
  constructor
  · rintro (h | h)
    · exact Or.inl h
    · exact Or.inr ⟨x, y, ⟨rfl, rfl⟩, h⟩
  · rintro (h | ⟨a, b, ⟨rfl, rfl⟩, h⟩)
    · exact Or.inl h
    · exact Or.inr h

theorem extensions_none (hL : Lawful L meaning) (level : Level) (g : T) (u v : List Sym) :
    meaning (applyLevel L level (L.minimize (L.star (L.minimize (L.pair Basic.identity Basic.identity)))) g) u v ↔
      Expanded (fun _ _ => False) (meaning g) level u v := by
  apply applyLevel_meaning hL
  intro u v
  refine ⟨Or.inl, ?_⟩
  rintro (h | ⟨_, _, h, _⟩)
  · exact h
  · exact h.elim

/-- **C97, -T (partial)**: if the file is in the format, the first transducer is written so that it accepts exactly the pairs that the old
one accepts with symbols written as the file says, on the level asked for; if the file is not in the format, nothing is written and the
tool fails.  Missing: the other transducers of the archive (`C97_archive_violated`). -/
theorem C97_file_partial (hL : Lawful L meaning) (libxml : Bool) (lines : List Str) (hl : FromFile lines)
    (hpl : ∀ x y, Says lines x y → Plain x ∧ Plain y) (level : Level) (g : T) :
    (InFormat lines → ∃ w, expandStream L libxml { tsv := some lines, level := level } [g] = ⟨[w], .success⟩ ∧
      ∀ u v, meaning w u v ↔ Expanded (Says lines) (meaning g) level u v) ∧
    (¬ InFormat lines → ∀ gs, expandStream L libxml { tsv := some lines, level := level } (g :: gs) = ⟨[], .failure⟩) := by
  constructor
  · intro hf
    cases hr : readLines L lines (L.pair Basic.identity Basic.identity) with
    | none => exact absurd hf ((readLines_none L lines hl _).1 hr)
    | some t =>
      refine ⟨applyLevel L level (L.minimize (L.star (L.minimize t))) g, ?_, fun u v => ?_⟩
      · simp only [expandStream, optionsOK, expandLoop, extensions, Option.getD_some, hr]
        rfl
      · exact applyLevel_meaning hL _ _ (readLines_meaning hL lines hl hpl _ t hr) level g u v
  · intro hf gs
    have hr := (readLines_none L lines hl (L.pair Basic.identity Basic.identity)).2 hf
    simp only [expandStream, optionsOK, expandLoop, extensions, Option.getD_some, hr]
    rfl

/-- **C97, the archive (violated)**: with -T only the first transducer of the archive is expanded: the others are written so that they
accept the pairs of ordinary symbols that they accepted before, whatever the file says. -/
theorem C97_archive_violated (hL : Lawful L meaning) (libxml : Bool) (lines : List Str) (hl : FromFile lines) (hf : InFormat lines)
    (level : Level) (g : T) (gs : List T) :
    ∃ (w : T) (same : T → T),
      expandStream L libxml { tsv := some lines, level := level } (g :: gs) = ⟨w :: gs.map same, .success⟩ ∧
      ∀ g' u v, (∀ c ∈ u, Ordinary c) → (∀ c ∈ v, Ordinary c) → (meaning (same g') u v ↔ meaning g' u v) := by
  cases hr : readLines L lines (L.pair Basic.identity Basic.identity) with
  | none => exact absurd hf ((readLines_none L lines hl _).1 hr)
  | some t =>
    refine ⟨applyLevel L level (L.minimize (L.star (L.minimize t))) g,
      fun g => applyLevel L level (L.minimize (L.star (L.minimize (L.pair Basic.identity Basic.identity)))) g, ?_, fun g' u v hu hv => ?_⟩
    · have he : extensions L libxml { tsv := some lines, level := level } [] = .inl (L.pair Basic.identity Basic.identity) := rfl
      have key := expandLoop_same libxml { tsv := some lines, level := level } _ _ he he gs
      have hu : expandStream L libxml { tsv := some lines, level := level } (g :: gs) =
          Tools.Run.after (applyLevel L level (L.minimize (L.star (L.minimize t))) g)
            (expandLoop L libxml { tsv := some lines, level := level } [] gs) := by
        simp only [expandStream, optionsOK, extensions, Option.getD_some, expandLoop, hr]
        rfl
      rw [hu, key]
      rfl
    · rw [extensions_none hL level g' u v, expanded_none _ _ _ _ hu hv]

theorem readEquivs_meaning (hL : Lawful L meaning) (x : Sym) (ys : List Sym) (h : ∀ y ∈ ys, x ≠ [] ∧ y ≠ [] ∧ Plain x ∧ Plain y) (t : T) :
    ∃ t', readEquivs L x ys t = some t' ∧ ∀ u v, meaning t' u v ↔ meaning t u v ∨ One (fun a b => a = x ∧ b ∈ ys) u v := by
  induction ys generalizing t with
  | nil =>
    refine ⟨t, rfl, fun u v => ⟨Or.inl, ?_⟩⟩
    rintro (h | ⟨_, _, ⟨_, h⟩, _⟩)
    · exact h
    · cases h
  | cons y ys ih =>
    obtain ⟨h1, h2, h3, h4⟩ := h y List.mem_cons_self
    obtain ⟨t', i1, i2⟩ := ih (fun z hz => h z (List.mem_cons_of_mem _ hz)) (addExtension L t x y)
    refine ⟨t', ?_, fun u v => ?_⟩
    · unfold readEquivs
      rw [if_neg (by simp [h1, h2]), i1]
    · rw [i2, addExtension_meaning hL t x y h1 h2 h3 h4]
      constructor
      · rintro ((h | h) | ⟨a, b, ⟨ha, hb⟩, h⟩)
        · exact Or.inl h
        · exact Or.inr ⟨x, y, ⟨rfl, List.mem_cons_self⟩, h⟩
        · exact Or.inr ⟨a, b, ⟨ha, List.mem_cons_of_mem _ hb⟩, h⟩
      · rintro (h | ⟨a, b, ⟨ha, hb⟩, h'⟩)
        · exact Or.inl (Or.inl h)
        · rcases List.mem_cons.1 hb with hb | hb
          · rw [ha, hb] at h'; exact Or.inl (Or.inr h')
          · exact Or.inr ⟨a, b, ⟨ha, hb⟩, h'⟩

theorem readChars_meaning (hL : Lawful L meaning) (chars : List (Sym × List Sym))
    (h : ∀ c ∈ chars, ∀ y ∈ c.2, c.1 ≠ [] ∧ y ≠ [] ∧ Plain c.1 ∧ Plain y) (t : T) :
    ∃ t', readChars L chars t = some t' ∧
      ∀ u v, meaning t' u v ↔ meaning t u v ∨ One (fun a b => ∃ c ∈ chars, c.1 = a ∧ b ∈ c.2) u v := by
  induction chars generalizing t with
  | nil =>
    refine ⟨t, rfl, fun u v => ⟨Or.inl, ?_⟩⟩
    rintro (h | ⟨_, _, ⟨_, h, _⟩, _⟩)
    · exact h
    · cases h
  | cons c cs ih =>
    obtain ⟨t1, e1, m1⟩ := readEquivs_meaning hL c.1 c.2 (h c List.mem_cons_self) t
    obtain ⟨t2, e2, m2⟩ := ih (fun d hd => h d (List.mem_cons_of_mem _ hd)) t1
    refine ⟨t2, ?_, fun u v => ?_⟩
    · unfold readChars
      rw [e1]
      exact e2
    · rw [m2, m1]
      constructor
      · rintro ((h | ⟨a, b, ⟨ha, hb⟩, h⟩) | ⟨a, b, ⟨d, hd, h'⟩, h⟩)
        · exact Or.inl h
        · exact Or.inr ⟨a, b, ⟨c, List.mem_cons_self, ha.symm, hb⟩, h⟩
        · exact Or.inr ⟨a, b, ⟨d, List.mem_cons_of_mem _ hd, h'⟩, h⟩
      · rintro (h' | ⟨a, b, ⟨d, hd, h1, h2⟩, h'⟩)
        · exact Or.inl (Or.inl h')
        · rcases List.mem_cons.1 hd with rfl | hd
          · exact Or.inl (Or.inr ⟨a, b, ⟨h1.symm, h2⟩, h'⟩)
          · exact Or.inr ⟨a, b, ⟨d, hd, h1, h2⟩, h'⟩

/-- **C97, -a (partial)**: compiled with libxml, every transducer of the archive is written so that it accepts exactly the pairs that the
old one accepts with symbols written as the acx file says; a file that libxml cannot read makes the tool fail.  Missing: a tool that is
compiled without libxml (`C97_acx_violated`). -/
theorem C97_acx_partial (hL : Lawful L meaning) (level : Level) (gs : List T) :
    (∀ chars : List (Sym × List Sym), (∀ c ∈ chars, ∀ y ∈ c.2, c.1 ≠ [] ∧ y ≠ [] ∧ Plain c.1 ∧ Plain y) →
      ∃ change : T → T, expandStream L true { acx := some (some chars), level := level } gs = ⟨gs.map change, .success⟩ ∧
        ∀ g u v, meaning (change g) u v ↔ Expanded (fun a b => ∃ c ∈ chars, c.1 = a ∧ b ∈ c.2) (meaning g) level u v) ∧
    ∀ g, expandStream L true { acx := some none, level := level } (g :: gs) = ⟨[], .failure⟩ := by
  refine ⟨fun chars h => ?_, fun g => rfl⟩
  obtain ⟨t, e, m⟩ := readChars_meaning hL chars h (L.pair Basic.identity Basic.identity)
  have he : ∀ left, extensions L true { acx := some (some chars), level := level } left = .inl t := by
    intro left
    simp only [extensions, if_true, e]
  exact ⟨_, expandLoop_same true { acx := some (some chars), level := level } _ _ (he _) (he _) gs,
    fun g u v => applyLevel_meaning hL _ t m level g u v⟩

/-- **C97, -a (violated)**: compiled without libxml, the tool takes the acx file, reports success and expands nothing, even if the file
cannot be read. -/
theorem C97_acx_violated (hL : Lawful L meaning) (file : Option (List (Sym × List Sym))) (level : Level) (gs : List T) :
    ∃ same : T → T, expandStream L false { acx := some file, level := level } gs = ⟨gs.map same, .success⟩ ∧
      ∀ g u v, (∀ c ∈ u, Ordinary c) → (∀ c ∈ v, Ordinary c) → (meaning (same g) u v ↔ meaning g u v) := by
  have he : ∀ left, extensions L false { acx := some file, level := level } left = .inl (L.pair Basic.identity Basic.identity) :=
    fun _ => rfl
  exact ⟨_, expandLoop_same false { acx := some file, level := level } _ _ (he _) (he _) gs,
    fun g u v hu hv => by rw [extensions_none hL level g u v, expanded_none _ _ _ _ hu hv]⟩

/-- **C97, nothing is lost**: pairs of ordinary symbols that were accepted are accepted afterwards, on every level and for all
equivalences. -/
theorem C97_keeps (E : Sym → Sym → Prop) (old : List Sym → List Sym → Prop) (level : Level) (u v : List Sym)
    (hu : ∀ c ∈ u, Ordinary c) (hv : ∀ c ∈ v, Ordinary c) (h : old u v) : Expanded E old level u v := by
  cases level
  · exact ⟨u, written_refl E u hu, h⟩
  · exact ⟨v, h, written_refl E v hv⟩
  · exact ⟨u, v, written_refl E u hu, h, written_refl E v hv⟩

/-- **C97, the options**: the tool fails without writing anything unless exactly one of the ways is chosen: -f together with -t, -T, or
-a. -/
theorem C97_options (libxml : Bool) (o : Options) (gs : List T) :
    let single := o.source.isSome ∧ o.dest.isSome ∧ o.tsv.isNone ∧ o.acx.isNone
    let tsv := o.source.isNone ∧ o.dest.isNone ∧ o.tsv.isSome ∧ o.acx.isNone
    let acx := o.source.isNone ∧ o.dest.isNone ∧ o.tsv.isNone ∧ o.acx.isSome
    (¬ (single ∨ tsv ∨ acx) → expandStream L libxml o gs = ⟨[], .failure⟩) ∧
    (single ∨ tsv ∨ acx → expandStream L libxml o [] = ⟨[], .success⟩) := by
  intro single tsv acx
  have key : optionsOK o = true ↔ single ∨ tsv ∨ acx := by
    obtain ⟨a, b, c, d, l⟩ := o
    cases a <;> cases b <;> cases c <;> cases d <;> simp [optionsOK, single, tsv, acx]
  constructor
  · intro h
    unfold expandStream
    rw [if_neg fun h' => h (key.1 h')]
  · intro h
    unfold expandStream
    rw [if_pos (key.2 h)]
    rfl

/-- **C97, an empty symbol**: an empty argument of -f or -t ends the tool with an exception. -/
theorem C97_empty (libxml : Bool) (x y : Sym) (h : x = [] ∨ y = []) (level : Level) (g : T) (gs : List T) :
    expandStream L libxml { source := some x, dest := some y, level := level } (g :: gs) = ⟨[], .crash⟩ := by
  simp only [expandStream, optionsOK, expandLoop, extensions, if_pos h]
  rfl

theorem written_absent (z y : Sym) (hz : z ≠ epsilon) (u v : List Sym) (hu : z ∉ u) (h : Written (fun a b => a = z ∧ b = y) u v) :
    u = v := by
  induction h with
  | nil => rfl
  | keep _ _ ih => rw [ih fun hm => hu (List.mem_cons_of_mem _ hm)]
  | change h =>
    obtain ⟨rfl, rfl⟩ := h
    unfold strOf at hu
    rw [if_neg hz] at hu
    exact absurd (by simp) hu

/-- **C97, epsilon (violated)**: an error message of the tool says that @0@ can be used for the empty string
(tools/src/hfst-expand-equivalences.cc:284-287).  The symbol is an ordinary one: with `-f @0@ -t y` the strings of a transducer without
that symbol stay as they are, while with the epsilon symbol `y` may be inserted in every place of the first level. -/
theorem C97_epsilon_violated (hL : Lawful L meaning) (libxml : Bool) (y : Sym) (hy : y ≠ []) (py : Plain y) (gs : List T) :
    ∃ change change' : T → T,
      expandStream L libxml { source := some "@0@".toList, dest := some y } gs = ⟨gs.map change, .success⟩ ∧
      expandStream L libxml { source := some epsilon, dest := some y } gs = ⟨gs.map change', .success⟩ ∧
      (∀ g, (∀ u v, meaning g u v → "@0@".toList ∉ u) → ∀ u v, meaning (change g) u v → meaning g u v) ∧
      ∀ g u u' v, (∀ c ∈ u ++ u', Ordinary c) → meaning g (u ++ u') v → meaning (change' g) (u ++ strOf y ++ u') v := by
  obtain ⟨c1, e1, m1⟩ := C97_single hL libxml "@0@".toList y (by decide) hy (by constructor <;> decide +kernel) py .first gs
  obtain ⟨c2, e2, m2⟩ := C97_single hL libxml epsilon y (by decide +kernel) hy (by constructor <;> decide +kernel) py .first gs
  refine ⟨c1, c2, e1, e2, fun g hg u v h => ?_, fun g u u' v hu h => ?_⟩
  · obtain ⟨w, h1, h2⟩ := (m1 g u v).1 h
    rwa [← written_absent _ y (by decide +kernel) w u (hg w v h2) h1]
  · refine (m2 g _ v).2 ⟨u ++ u', ?_, h⟩
    clear h
    induction u with
    | nil =>
      have := Written.change (E := fun a b => a = epsilon ∧ b = y) (u := u') (v := u') ⟨rfl, rfl⟩
        (written_refl _ u' fun c hc => hu c hc)
      have e : strOf epsilon = [] := if_pos rfl
      rw [e] at this
      exact this
    | cons c u ih =>
      exact .keep (hu c List.mem_cons_self) (ih fun d hd => hu d (List.mem_cons_of_mem _ hd))

end Meaning

/-- **C97, -l (partial)**: the names of the levels that the tool takes, and all others make it fail.  Missing: two of the names of the help
text (`C97_level_violated`). -/
theorem C97_level_partial (arg : Str) (level : Level) :
    parseLevel arg = some level ↔
      match level with
      | .first => arg ∈ ["upper", "first", "1", "input"].map String.toList
      | .second => arg ∈ ["lower", "second", "2", "output"].map String.toList
      | .both => arg = "both".toList := by
  unfold parseLevel
  by_cases h1 : arg = "first".toList
  · subst h1; cases level <;> decide +kernel
  by_cases h2 : arg = "upper".toList
  · subst h2; cases level <;> decide +kernel
  by_cases h3 : arg = "input".toList
  · subst h3; cases level <;> decide +kernel
  by_cases h4 : arg = "1".toList
  · subst h4; cases level <;> decide +kernel
  by_cases h5 : arg = "second".toList
  · subst h5; cases level <;> decide +kernel
  by_cases h6 : arg = "lower".toList
  · subst h6; cases level <;> decide +kernel
  by_cases h7 : arg = "output".toList
  · subst h7; cases level <;> decide +kernel
  by_cases h8 : arg = "2".toList
  · subst h8; cases level <;> decide +kernel
  by_cases h9 : arg = "both".toList
  · subst h9; cases level <;> decide +kernel
  rw [if_neg (by simp only [h1, h2, h3, h4, or_self, not_false_eq_true]),
    if_neg (by simp only [h5, h6, h7, h8, or_self, not_false_eq_true]), if_neg h9]
  cases level
  · simp only [List.map, List.mem_cons, List.not_mem_nil, h1, h2, h3, h4, or_self, reduceCtorEq]
  · simp only [List.map, List.mem_cons, List.not_mem_nil, h5, h6, h7, h8, or_self, reduceCtorEq]
  · simp only [h9, reduceCtorEq]

/-- **C97, -l (violated)**: the help text names "surface" for the first level and "analysis" for the second
(tools/src/hfst-expand-equivalences.cc:97-98); the tool takes neither. -/
theorem C97_level_violated : parseLevel "surface".toList = none ∧ parseLevel "analysis".toList = none := by
  constructor <;> decide +kernel

end Hfst.Expand
