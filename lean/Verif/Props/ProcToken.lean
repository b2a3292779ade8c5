import Verif.Spec.ProcToken
import Mathlib.Tactic.ByContra
import Mathlib.Tactic.SplitIfs
import Mathlib.Data.List.Induction

/-!
# hfst-proc: the tokens are those of the longest match, and printing them gives the text back
-/
namespace Hfst.Proc
open Hfst.Basic

/-! ## The trie -/

/-- The number stored for a string. -/
def Trie.get : Trie → Bytes → Nat
  | _, [] => noSym
  | t, [c] => t.symbols c
  | t, c :: d :: rest => match t.letters c with
    | none => noSym
    | some sub => sub.get (d :: rest)

/-- The node that a string leads to. -/
def Trie.go : Trie → Bytes → Option Trie
  | t, [] => some t
  | t, c :: rest => match t.letters c with
    | none => none
    | some sub => sub.go rest

theorem putAt_eq {α : Type} (v : UInt8 → α) (c d : UInt8) (x : α) : putAt v c x d = if d = c then x else v d := rfl

theorem trie_empty_get (s : Bytes) : Trie.empty.get s = noSym := by
  match s with
  | [] => rfl
  | [_] => rfl
  | _ :: _ :: _ => rfl

theorem go_empty (c : UInt8) (r : Bytes) : Trie.empty.go (c :: r) = none := rfl

theorem get_cons {t : Trie} {c : UInt8} {q : Bytes} (hq : q ≠ []) : t.get (c :: q) = match t.letters c with
    | none => noSym
    | some sub => sub.get q := by
  match q, hq with
  | d :: q, _ => rfl

theorem trie_add : ∀ (p : Bytes) (t : Trie) (k : Nat), p ≠ [] → 255 ∉ p →
    ∃ t', t.add p k = .ok t' ∧ (∀ s, t'.get s = if s = p then k else t.get s) ∧
      ∀ s, (t'.go s).isSome = true ↔ (t.go s).isSome = true ∨ (s <+: p ∧ s ≠ p)
  | [], _, _, h, _ => absurd rfl h
  | [c], t, k, _, h0 => by
    have hc : c ≠ 255 := fun e => h0 (by rw [e]; exact List.mem_cons_self ..)
    refine ⟨_, by rw [Trie.add, if_neg hc], ?_, ?_⟩
    · intro s
      match s with
      | [] => rfl
      | [d] =>
        show putAt t.symbols c k d = _
        rw [putAt_eq]
        by_cases h : d = c
        · rw [if_pos h, if_pos (by rw [h])]
        · rw [if_neg h, if_neg (by simpa using h)]
          rfl
      | d :: e :: r =>
        rw [if_neg (by simp)]
        rfl
    · intro s
      match s with
      | [] => simp [Trie.go]
      | d :: s =>
        show (Trie.go t (d :: s)).isSome = true ↔ _
        refine ⟨.inl, ?_⟩
        rintro (h | ⟨h, h'⟩)
        · exact h
        · obtain ⟨e1, e2⟩ := List.cons_prefix_cons.mp h
          exact absurd (by rw [e1, List.prefix_nil.mp e2]) h'
  | c :: d :: rest, t, k, _, h0 => by
    have hc : c ≠ 255 := fun e => h0 (by rw [e]; exact List.mem_cons_self ..)
    obtain ⟨sub, e, s2, s3⟩ := trie_add (d :: rest) ((t.letters c).getD .empty) k (by simp)
      (fun h => h0 (List.mem_cons_of_mem _ h))
    refine ⟨.node (putAt t.letters c (some sub)) t.symbols, by rw [Trie.add, if_neg hc, e]; rfl, ?_, ?_⟩
    · intro s
      match s with
      | [] => rfl
      | [b] => rw [if_neg (by simp)]; rfl
      | b :: b' :: r =>
        show (match putAt t.letters c (some sub) b with
          | none => noSym
          | some sub => sub.get (b' :: r)) = _
        rw [putAt_eq]
        by_cases h : b = c
        · rw [if_pos h]
          dsimp only
          rw [s2]
          subst h
          by_cases h' : b' :: r = d :: rest
          · rw [if_pos h', if_pos (by rw [h'])]
          · rw [if_neg h', if_neg (fun e => h' (List.cons.inj e).2),
              get_cons (t := t) (c := b) (q := b' :: r) (by simp)]
            cases hl : t.letters b with
            | none => rw [Option.getD_none, trie_empty_get]
            | some sub' => rw [Option.getD_some]
        · rw [if_neg h, if_neg (fun e => h (List.cons.inj e).1)]
          rfl
    · intro s
      match s with
      | [] => simp [Trie.go]
      | b :: r =>
        show (match putAt t.letters c (some sub) b with
          | none => none
          | some sub => sub.go r).isSome = true ↔ _
        rw [putAt_eq]
        by_cases h : b = c
        · subst h
          rw [if_pos rfl]
          dsimp only
          rw [s3]
          have hp : (b :: r <+: b :: d :: rest ∧ b :: r ≠ b :: d :: rest) ↔ (r <+: d :: rest ∧ r ≠ d :: rest) := by
            rw [List.cons_prefix_cons]
            simp
          rw [hp]
          cases hl : t.letters b with
          | none =>
            simp only [Trie.go, hl, Option.getD_none]
            cases r with
            | nil => simp
            | cons x r => simp [go_empty]
          | some sub' =>
            simp only [Trie.go, hl, Option.getD_some]
        · rw [if_neg h]
          have hp : ¬ (b :: r <+: c :: d :: rest ∧ b :: r ≠ c :: d :: rest) := by
            rintro ⟨h1, _⟩
            exact h (List.cons_prefix_cons.mp h1).1
          simp only [hp, or_false]
          rfl

/-- The longest stored string that the text starts with: its number, and what follows it. -/
def Extracts (get : Bytes → Nat) (s : Bytes) (r : Nat × Bytes) : Prop :=
  (r.1 = noSym ∧ r.2 = s ∧ ∀ p, p <+: s → get p = noSym) ∨
    (r.1 ≠ noSym ∧ ∃ x, s = x ++ r.2 ∧ get x = r.1 ∧ ∀ p, p <+: s → get p ≠ noSym → p.length ≤ x.length)

theorem trie_extract : ∀ (s : Bytes) (t : Trie), 255 ∉ s → t.go s = none → ∃ r, t.extract s = .ok r ∧ Extracts t.get s r
  | [], t, _, h => by cases h
  | c :: rest, t, h255, hgo => by
    have hc : c ≠ 255 := fun e => h255 (by rw [e]; exact List.mem_cons_self ..)
    have hprefix : ∀ p, p <+: c :: rest → p = [] ∨ ∃ q, p = c :: q ∧ q <+: rest := by
      intro p hp
      cases p with
      | nil => exact .inl rfl
      | cons d q =>
        obtain ⟨h, h'⟩ := List.cons_prefix_cons.mp hp
        exact .inr ⟨q, by rw [h], h'⟩
    rw [Trie.extract, if_neg hc]
    cases hl : t.letters c with
    | none =>
      refine ⟨_, rfl, ?_⟩
      have hget : ∀ q, q ≠ [] → t.get (c :: q) = noSym := by
        intro q hq
        rw [get_cons hq, hl]
      by_cases hs : t.symbols c = noSym
      · refine .inl ⟨hs, if_pos hs, ?_⟩
        intro p hp
        rcases hprefix p hp with rfl | ⟨q, rfl, _⟩
        · rfl
        · by_cases hq : q = []
          · subst hq; exact hs
          · exact hget q hq
      · refine .inr ⟨hs, [c], by rw [if_neg hs]; rfl, rfl, ?_⟩
        intro p hp hg
        rcases hprefix p hp with rfl | ⟨q, rfl, _⟩
        · simp
        · by_cases hq : q = []
          · subst hq; simp
          · exact absurd (hget q hq) hg
    | some sub =>
      have hgo' : sub.go rest = none := by
        rw [Trie.go, hl] at hgo
        exact hgo
      obtain ⟨r, e, hr⟩ := trie_extract rest sub (fun h => h255 (List.mem_cons_of_mem _ h)) hgo'
      have hget : ∀ q, q ≠ [] → t.get (c :: q) = sub.get q := by
        intro q hq
        rw [get_cons hq, hl]
      dsimp only
      rw [e, Outcome.bind]
      rcases hr with ⟨r1, r2, r3⟩ | ⟨r1, x, r2, r3, r4⟩
      · rw [if_pos r1]
        refine ⟨_, rfl, ?_⟩
        by_cases hs : t.symbols c = noSym
        · refine .inl ⟨hs, by rw [if_pos hs, r2], ?_⟩
          intro p hp
          rcases hprefix p hp with rfl | ⟨q, rfl, hq⟩
          · rfl
          · by_cases hq0 : q = []
            · subst hq0; exact hs
            · rw [hget q hq0]; exact r3 q hq
        · refine .inr ⟨hs, [c], by rw [if_neg hs, r2]; rfl, rfl, ?_⟩
          intro p hp hg
          rcases hprefix p hp with rfl | ⟨q, rfl, hq⟩
          · simp
          · by_cases hq0 : q = []
            · subst hq0; simp
            · rw [hget q hq0] at hg
              exact absurd (r3 q hq) hg
      · rw [if_neg r1]
        have hx : x ≠ [] := by
          intro h0
          rw [h0] at r3
          exact r1 r3.symm
        refine ⟨_, rfl, .inr ⟨r1, c :: x, by rw [List.cons_append, ← r2], by rw [hget x hx, r3], ?_⟩⟩
        intro p hp hg
        rcases hprefix p hp with rfl | ⟨q, rfl, hq⟩
        · simp
        · by_cases hq0 : q = []
          · subst hq0; simp
          · rw [hget q hq0] at hg
            have := r4 q hq hg
            simp only [List.length_cons]
            omega

/-! ## The symbolizer -/

/-- What the symbolizer has stored after the symbols of `tb`. -/
structure Stored (tb : List Bytes) (z : Symbolizer) : Prop where
  count : z.count = tb.length
  get : ∀ s, (z.letters.get s = noSym ∧ (s = [] ∨ s ∉ tb)) ∨ IsSymbol tb (z.letters.get s) s
  go : ∀ s, (z.letters.go s).isSome = true ↔ s = [] ∨ ∃ y ∈ tb, s <+: y ∧ s ≠ y
  ascii : ∀ c, z.ascii c ≠ 0 → z.letters.go [c] = none ∧ (z.ascii c ≠ noSym → z.letters.get [c] = z.ascii c)

theorem stored_empty : Stored [] Symbolizer.empty := by
  refine ⟨rfl, fun s => .inl ⟨trie_empty_get s, .inr (by simp)⟩, fun s => ?_, fun c _ => ⟨rfl, fun h => absurd rfl h⟩⟩
  cases s with
  | nil => simp [Trie.go]
  | cons c s => simp [Symbolizer.empty, Trie.go, Trie.empty, Trie.letters]

theorem isSymbol_snoc_self {tb : List Bytes} {p : Bytes} (hp : p ≠ []) : IsSymbol (tb ++ [p]) tb.length p := by
  refine ⟨hp, by simp, fun k' h => ?_⟩
  have := (List.getElem?_eq_some_iff.mp h).1
  rw [List.length_append, List.length_singleton] at this
  omega

theorem isSymbol_snoc_other {tb : List Bytes} {p x : Bytes} {k : Nat} (h : IsSymbol tb k x) (hne : x ≠ p) :
    IsSymbol (tb ++ [p]) k x := by
  have hk := (List.getElem?_eq_some_iff.mp h.2.1).1
  refine ⟨h.1, by rw [List.getElem?_append_left hk]; exact h.2.1, fun k' h' => ?_⟩
  rcases Nat.lt_or_ge k' tb.length with c | c
  · rw [List.getElem?_append_left c] at h'
    exact h.2.2 k' h'
  · have := (List.getElem?_eq_some_iff.mp h').1
    rw [List.length_append, List.length_singleton] at this
    have e : k' = tb.length := by omega
    subst e
    simp at h'
    exact absurd h'.symm hne

theorem go_singleton (t : Trie) (c : UInt8) : t.go [c] = none ↔ t.letters c = none := by
  unfold Trie.go
  cases t.letters c with
  | none => simp
  | some sub => simp [Trie.go]

theorem stored_add {tb : List Bytes} {z : Symbolizer} (h : Stored tb z) {p : Bytes} (hp : 255 ∉ p) :
    ∃ z', z.add p = .ok z' ∧ Stored (tb ++ [p]) z' := by
  cases p with
  | nil =>
    refine ⟨_, rfl, ?_, fun s => ?_, fun s => ?_, h.ascii⟩
    · show z.count + 1 = _
      rw [h.count, List.length_append, List.length_singleton]
    · rcases h.get s with ⟨h1, h2⟩ | h1
      · refine .inl ⟨h1, ?_⟩
        rcases h2 with e | e
        · exact .inl e
        · by_cases hs : s = []
          · exact .inl hs
          · refine .inr ?_
            rw [List.mem_append, List.mem_singleton]
            rintro (c | c)
            · exact e c
            · exact hs c
      · exact .inr (isSymbol_snoc_other h1 h1.1)
    · rw [h.go s]
      constructor
      · rintro (e | ⟨y, hy, h1, h2⟩)
        · exact .inl e
        · exact .inr ⟨y, List.mem_append_left _ hy, h1, h2⟩
      · rintro (e | ⟨y, hy, h1, h2⟩)
        · exact .inl e
        · rcases List.mem_append.mp hy with hy | hy
          · exact .inr ⟨y, hy, h1, h2⟩
          · rw [List.mem_singleton] at hy
            subst hy
            exact .inl (List.prefix_nil.mp h1)
  | cons c rest =>
    have hc : c ≠ 255 := fun e => hp (by rw [e]; exact List.mem_cons_self ..)
    obtain ⟨t', e1, e2, e3⟩ := trie_add (c :: rest) z.letters z.count (by simp) hp
    refine ⟨⟨t', if z.ascii c ≠ 0 then (if rest = [] then putAt z.ascii c z.count else putAt z.ascii c 0) else z.ascii,
      z.count + 1⟩, ?_, ?_, fun s => ?_, fun s => ?_, fun d hd => ?_⟩
    · rw [Symbolizer.add, if_neg hc, e1]
      rfl
    · show z.count + 1 = _
      rw [h.count, List.length_append, List.length_singleton]
    · dsimp only
      rw [e2]
      by_cases hs : s = c :: rest
      · rw [if_pos hs, h.count, hs]
        exact .inr (isSymbol_snoc_self (by simp))
      · rw [if_neg hs]
        rcases h.get s with ⟨h1, h2⟩ | h1
        · refine .inl ⟨h1, ?_⟩
          rcases h2 with e | e
          · exact .inl e
          · refine .inr ?_
            rw [List.mem_append, List.mem_singleton]
            rintro (c | c)
            · exact e c
            · exact hs c
        · exact .inr (isSymbol_snoc_other h1 hs)
    · dsimp only
      rw [e3, h.go]
      constructor
      · rintro ((e | ⟨y, hy, h1, h2⟩) | ⟨h1, h2⟩)
        · exact .inl e
        · exact .inr ⟨y, List.mem_append_left _ hy, h1, h2⟩
        · exact .inr ⟨c :: rest, by simp, h1, h2⟩
      · rintro (e | ⟨y, hy, h1, h2⟩)
        · exact .inl (.inl e)
        · rcases List.mem_append.mp hy with hy | hy
          · exact .inl (.inr ⟨y, hy, h1, h2⟩)
          · rw [List.mem_singleton] at hy
            subst hy
            exact .inr ⟨h1, h2⟩
    · dsimp only at hd ⊢
      have hgo : z.letters.go [d] = none → ¬ (d = c ∧ rest ≠ []) → t'.go [d] = none := by
        intro h1 h2
        cases hg : t'.go [d] with
        | none => rfl
        | some q =>
          exfalso
          rcases (e3 [d]).mp (by rw [hg]; rfl) with h3 | ⟨h3, h4⟩
          · rw [h1] at h3
            cases h3
          · obtain ⟨e, _⟩ := List.cons_prefix_cons.mp h3
            refine h2 ⟨e, fun hr => h4 (by rw [e, hr])⟩
      have hget : d ≠ c → t'.get [d] = z.letters.get [d] := by
        intro hne
        rw [e2, if_neg (by simp [hne])]
      by_cases hdc : d = c
      · subst hdc
        by_cases ha : z.ascii d ≠ 0
        · rw [if_pos ha] at hd ⊢
          by_cases hr : rest = []
          · rw [if_pos hr, putAt_eq, if_pos rfl] at *
            refine ⟨hgo (h.ascii d ha).1 (fun hh => hh.2 hr), fun _ => ?_⟩
            rw [e2, if_pos (by rw [hr])]
          · rw [if_neg hr, putAt_eq, if_pos rfl] at hd
            exact absurd rfl hd
        · rw [if_neg ha] at hd
          exact absurd hd ha
      · have heq : (if z.ascii c ≠ 0 then (if rest = [] then putAt z.ascii c z.count else putAt z.ascii c 0) else z.ascii) d =
            z.ascii d := by
          split_ifs <;> first | rfl | (rw [putAt_eq, if_neg hdc])
        rw [heq] at hd ⊢
        refine ⟨hgo (h.ascii d hd).1 (fun hh => hdc hh.1), fun hn => ?_⟩
        rw [hget hdc]
        exact (h.ascii d hd).2 hn

theorem stored_all : ∀ (ps tb : List Bytes) (z : Symbolizer), Stored tb z → (∀ p ∈ ps, 255 ∉ p) →
    ∃ z', Symbolizer.addAll ps z = .ok z' ∧ Stored (tb ++ ps) z'
  | [], tb, z, h, _ => ⟨z, rfl, by rw [List.append_nil]; exact h⟩
  | p :: ps, tb, z, h, hp => by
    obtain ⟨z1, e1, h1⟩ := stored_add h (hp p (List.mem_cons_self ..))
    obtain ⟨z2, e2, h2⟩ := stored_all ps _ z1 h1 fun q hq => hp q (List.mem_cons_of_mem _ hq)
    refine ⟨z2, ?_, ?_⟩
    · rw [Symbolizer.addAll, e1]
      exact e2
    · rw [List.append_assoc] at h2
      exact h2

/-- What is extracted from a text that does not stop in the middle of a symbol. -/
theorem symbolizer_extract {tb : List Bytes} {z : Symbolizer} (h : Stored tb z) (hsize : tb.length ≤ noSym) {s : Bytes} (hs : s ≠ [])
    (h0 : 0 ∉ s) (h255 : 255 ∉ s) (hcut : NotCut tb s) :
    ∃ r, z.extract s = .ok r ∧ ((r.1 = noSym ∧ r.2 = s ∧ NoSymbol tb s) ∨
      (r.1 ≠ noSym ∧ ∃ x, s = x ++ r.2 ∧ LongestSymbol tb s r.1 x)) := by
  have hnum : ∀ {k : Nat} {x : Bytes}, IsSymbol tb k x → k ≠ noSym := by
    intro k x hk e
    have := (List.getElem?_eq_some_iff.mp hk.2.1).1
    omega
  have hget : ∀ y ∈ tb, y ≠ [] → z.letters.get y ≠ noSym := by
    intro y hy hne
    rcases h.get y with ⟨_, h2⟩ | h1
    · rcases h2 with e | e
      · exact absurd e hne
      · exact absurd hy e
    · exact hnum h1
  have hgo : z.letters.go s = none := by
    cases hg : z.letters.go s with
    | none => rfl
    | some q =>
      exfalso
      rcases (h.go s).mp (by rw [hg]; rfl) with e | ⟨y, hy, h1, h2⟩
      · exact hs e
      · exact h2 (hcut y hy h1).symm
  have hsub : ∀ r, Extracts z.letters.get s r → ((r.1 = noSym ∧ r.2 = s ∧ NoSymbol tb s) ∨
      (r.1 ≠ noSym ∧ ∃ x, s = x ++ r.2 ∧ LongestSymbol tb s r.1 x)) := by
    rintro r (⟨r1, r2, r3⟩ | ⟨r1, x, r2, r3, r4⟩)
    · exact .inl ⟨r1, r2, fun y hy hne hp => hget y hy hne (r3 y hp)⟩
    · refine .inr ⟨r1, x, r2, ?_, by rw [r2]; exact List.prefix_append .., ?_⟩
      · rcases h.get x with ⟨e, _⟩ | e
        · exact absurd (r3.symm.trans e) r1
        · rw [r3] at e
          exact e
      · intro y hy hp
        by_cases hne : y = []
        · subst hne; simp
        · exact r4 y hp (hget y hy hne)
  match s, hs with
  | c :: rest, _ =>
    have hc0 : c ≠ 0 := fun e => h0 (by rw [e]; exact List.mem_cons_self ..)
    have hc255 : c ≠ 255 := fun e => h255 (by rw [e]; exact List.mem_cons_self ..)
    unfold Symbolizer.extract
    dsimp only
    rw [if_neg hc0, if_neg hc255]
    by_cases ha : z.ascii c = noSym ∨ z.ascii c = 0
    · rw [if_pos ha]
      obtain ⟨r, e1, e2⟩ := trie_extract _ _ h255 hgo
      exact ⟨r, e1, hsub r e2⟩
    · rw [if_neg ha]
      have ha1 : z.ascii c ≠ noSym := fun e => ha (.inl e)
      have ha2 : z.ascii c ≠ 0 := fun e => ha (.inr e)
      obtain ⟨g1, g2⟩ := h.ascii c ha2
      refine ⟨_, rfl, hsub _ (.inr ⟨ha1, [c], rfl, g2 ha1, ?_⟩)⟩
      intro p hp hg
      cases p with
      | nil => simp
      | cons d q =>
        obtain ⟨e, _⟩ := List.cons_prefix_cons.mp hp
        subst e
        by_cases hq : q = []
        · subst hq; simp
        · exfalso
          rw [get_cons hq, (go_singleton _ _).mp g1] at hg
          exact hg rfl

theorem longestSymbol_unique {tb : List Bytes} {s x x' : Bytes} {k k' : Nat} (h : LongestSymbol tb s k x)
    (h' : LongestSymbol tb s k' x') : k = k' ∧ x = x' := by
  have h1 := h.2.2 x' (List.mem_of_getElem? h'.1.2.1) h'.2.1
  have h2 := h'.2.2 x (List.mem_of_getElem? h.1.2.1) h.2.1
  have hx : x = x' := (List.prefix_of_prefix_length_le h.2.1 h'.2.1 h2).eq_of_length (by omega)
  subst hx
  exact ⟨Nat.le_antisymm (h'.1.2.2 k h.1.2.1) (h.1.2.2 k' h'.1.2.1), rfl⟩

/-! ## The stream -/

theorem byte_all {P : UInt8 → Prop} (h : ∀ n : Fin 256, P (UInt8.ofNat n.val)) (c : UInt8) : P c := by
  have := h ⟨c.toNat, c.toNat_lt⟩
  simpa using this

theorem reserved_iff : ∀ c : UInt8, Reserved c ↔ escapedChars.contains c = true := by
  refine byte_all ?_
  unfold Reserved
  decide +kernel

theorem esc_iff {m : Stream} (hr : m.raw = false) (c : UInt8) : m.esc c = true ↔ Reserved c := by
  unfold Stream.esc
  rw [hr, reserved_iff]
  simp

theorem charLength_spec : ∀ c : UInt8, (c < 128 → charLength c = 1) ∧ (192 ≤ c → c < 224 → charLength c = 2) ∧
    (224 ≤ c → c < 240 → charLength c = 3) ∧ (240 ≤ c → c < 248 → charLength c = 4) := by
  refine byte_all ?_
  decide +kernel

theorem high_not_escaped : ∀ c : UInt8, 128 ≤ c → escapedChars.contains c = false := by
  refine byte_all ?_
  decide +kernel

theorem isChar_length {x : Bytes} (h : IsChar x) : ∃ c r, x = c :: r ∧ charLength c = x.length ∧ ∀ b ∈ r, 128 ≤ b := by
  obtain ⟨c, r, rfl, hr, hl⟩ := h
  refine ⟨c, r, rfl, ?_, fun b hb => (hr b hb).1⟩
  obtain ⟨h1, h2, h3, h4⟩ := charLength_spec c
  rw [List.length_cons]
  rcases hl with ⟨a, e⟩ | ⟨a, b, e⟩ | ⟨a, b, e⟩ | ⟨a, b, e⟩
  · rw [h1 a, e]
  · rw [h2 a b, e]
  · rw [h3 a b, e]
  · rw [h4 a b, e]

theorem takeWhile_same {α : Type} (p : α → Bool) : ∀ l : List α, (∀ b ∈ l, p b = true) → l.takeWhile p = l
  | [], _ => rfl
  | b :: l, h => by
    rw [List.takeWhile_cons, h b (List.mem_cons_self ..), if_pos rfl,
      takeWhile_same p l fun d hd => h d (List.mem_cons_of_mem _ hd)]

theorem readChar_spec {x r : Bytes} (hx : IsChar x) (h0 : 0 ∉ x) : readChar (x ++ r) = .ok (x, r) := by
  obtain ⟨c, q, rfl, hl, _⟩ := isChar_length hx
  have hc : c ≠ 0 := fun e => h0 (by rw [e]; exact List.mem_cons_self ..)
  rw [List.cons_append, readChar, if_neg hc, hl, if_neg (by simp)]
  dsimp only
  have ht : (c :: (q ++ r)).take (c :: q).length = c :: q := by
    rw [← List.cons_append, List.take_left]
  have hw : (c :: q).takeWhile (fun b => decide (b ≠ 0)) = c :: q := by
    refine takeWhile_same _ _ fun b hb => ?_
    rw [decide_eq_true_iff]
    intro e
    exact h0 (by rw [← e]; exact hb)
  rw [ht, hw, ← List.cons_append, List.drop_left]

section
variable {m : Stream}

theorem makeToken_symbol (hz : Stored m.table m.symbolizer) (hsize : m.table.length ≤ noSym) {x r : Bytes} {k : Nat} (e : Bool)
    (h0 : 0 ∉ x ++ r) (h255 : 255 ∉ x ++ r) (hcut : NotCut m.table (x ++ r)) (hk : 0 < k)
    (hl : LongestSymbol m.table (x ++ r) k x) : m.makeToken (x ++ r) e = .ok (some (.sym k e), r) := by
  have hne : x ++ r ≠ [] := by
    intro h
    exact hl.1.1 (List.append_eq_nil_iff.mp h).1
  obtain ⟨q, e1, e2⟩ := symbolizer_extract hz hsize hne h0 h255 hcut
  unfold Stream.makeToken
  rw [e1, Outcome.bind]
  rcases e2 with ⟨_, _, hno⟩ | ⟨hq, x', ex, hl'⟩
  · exact absurd hl.2.1 (hno x (List.mem_of_getElem? hl.1.2.1) hl.1.1)
  · obtain ⟨ek, exx⟩ := longestSymbol_unique hl hl'
    subst exx
    have er : r = q.2 := List.append_cancel_left ex
    rw [← ek, if_neg (by omega), if_pos (by rw [ek]; exact hq), ← er]

theorem makeToken_char (hz : Stored m.table m.symbolizer) (hsize : m.table.length ≤ noSym) {x r : Bytes} (e : Bool)
    (h0 : 0 ∉ x ++ r) (h255 : 255 ∉ x ++ r) (hcut : NotCut m.table (x ++ r)) (hc : IsChar x)
    (hno : NoSymbol m.table (x ++ r)) : m.makeToken (x ++ r) e =
      .ok (some (if e = false ∧ (x.headD 0 |> m.esc) = true then .reserved (x.headD 0) else .char x), r) := by
  obtain ⟨c, q, ex, _, _⟩ := isChar_length hc
  have hne : x ++ r ≠ [] := by rw [ex]; simp
  obtain ⟨q', e1, e2⟩ := symbolizer_extract hz hsize hne h0 h255 hcut
  unfold Stream.makeToken
  rw [e1, Outcome.bind]
  rcases e2 with ⟨g1, g2, _⟩ | ⟨_, x', _, hl'⟩
  · rw [g1, if_neg (by decide), if_neg (by simp), g2, readChar_spec hc (fun h => h0 (List.mem_append_left _ h)), Outcome.bind]
    dsimp only
    cases e with
    | true => simp
    | false =>
      rw [ex]
      simp
  · exact absurd hl'.2.1 (hno x' (List.mem_of_getElem? hl'.1.2.1) hl'.1.1)

theorem readTo_inside (hr : m.raw = false) {i : Bytes} (hi : Inside i) (r : Bytes) :
    m.readTo (i ++ 93 :: r) = .ok (i ++ [93], r, true) := by
  induction hi with
  | nil => rfl
  | @plain c b h1 h2 _ ih =>
    rw [List.cons_append, Stream.readTo]
    · rw [if_neg h2, ih]
      rfl
    · intro e
      exact h1 e
  | @escaped c b hc _ ih =>
    rw [List.cons_append, List.cons_append, Stream.readTo, if_pos ((esc_iff hr c).mpr hc), ih]
    rfl

theorem readBlank_spec (hr : m.raw = false) {b : Bytes} (hb : IsBlank b) (r : Bytes) :
    ∃ b', b = 91 :: b' ∧ m.readBlank (b' ++ r) = .ok (b, r) := by
  obtain ⟨i, hi, ⟨rfl, hh⟩ | rfl⟩ := hb
  · refine ⟨i ++ [93], rfl, ?_⟩
    unfold Stream.readBlank
    rw [List.append_assoc, List.singleton_append, readTo_inside hr hi, Outcome.bind]
    dsimp only
    rw [if_neg ?_, if_pos rfl]
    · rfl
    · cases i with
      | nil => simp
      | cons c i => simpa using hh
  · refine ⟨91 :: i ++ [93, 93], rfl, ?_⟩
    unfold Stream.readBlank
    have hi' : Inside (91 :: i) := .plain (by decide) (by decide) hi
    have : (91 :: i ++ [93, 93]) ++ r = (91 :: i) ++ 93 :: (93 :: r) := by simp
    rw [this, readTo_inside hr hi', Outcome.bind]
    dsimp only
    rw [if_pos (by rfl)]
    simp

theorem symbolString_eq {k : Nat} {x : Bytes} (hk : 0 < k) (hx : IsSymbol m.table k x) : m.symbolString k = x := by
  unfold Stream.symbolString
  rw [if_neg (by omega), List.getD_eq_getElem?_getD, hx.2.1]
  rfl

theorem escape_char {x : Bytes} (hx : IsChar x) (hh : ∀ c, x.head? = some c → m.esc c = false) : m.escape x = x := by
  obtain ⟨c, q, rfl, _, hq⟩ := isChar_length hx
  unfold Stream.escape
  have hall : ∀ b ∈ c :: q, m.esc b = false := by
    intro b hb
    rcases List.mem_cons.mp hb with e | e
    · rw [e]; exact hh c rfl
    · unfold Stream.esc
      rw [high_not_escaped b (hq b e)]
      simp
  have : ∀ l : Bytes, (∀ b ∈ l, m.esc b = false) → (l.flatMap fun c => if m.esc c then [92, c] else [c]) = l := by
    intro l
    induction l with
    | nil => intro _; rfl
    | cons b l ih =>
      intro h
      rw [List.flatMap_cons, h b (List.mem_cons_self ..), ih fun d hd => h d (List.mem_cons_of_mem _ hd)]
      rfl
  exact this _ hall

/-- One token and then the rest. -/
theorem readAll_step {s r : Bytes} {t : Tok} {ts : List Tok} (h1 : m.readToken s = .ok (some t, r))
    (h2 : ∀ n, ts.length < n → m.readAll n r = .ok ts) : ∀ n, (t :: ts).length < n → m.readAll n s = .ok (t :: ts) := by
  intro n hn
  cases n with
  | zero => omega
  | succ n =>
    rw [Stream.readAll, h1, Outcome.bind]
    dsimp only
    rw [h2 n (by simpa using hn)]
    rfl

theorem readToken_plain {x r : Bytes} (hx : x ≠ []) (hh : ∀ c, x.head? = some c → m.esc c = false) :
    m.readToken (x ++ r) = m.makeToken (x ++ r) false := by
  cases x with
  | nil => exact absurd rfl hx
  | cons c x =>
    unfold Stream.readToken
    rw [List.cons_append]
    dsimp only
    rw [hh c rfl, if_neg (by simp)]

theorem esc_of_reserved {c : UInt8} (hr : m.raw = false) (hc : Reserved c) : m.esc c = true := (esc_iff hr c).mpr hc

theorem not_esc {x : Bytes} (h : m.raw = false → ∀ c, x.head? = some c → ¬ Reserved c) : ∀ c, x.head? = some c → m.esc c = false := by
  intro c hc
  cases hr : m.raw with
  | true => unfold Stream.esc; rw [hr]; rfl
  | false =>
    rw [Bool.eq_false_iff]
    intro he
    exact h hr c hc ((esc_iff hr c).mp he)

theorem tokens_read (hz : Stored m.table m.symbolizer) (hsize : m.table.length ≤ noSym) {s : Bytes} {ts : List Tok}
    (h : Tokens m.table m.raw s ts) : 0 ∉ s → 255 ∉ s →
    (∀ n, ts.length < n → m.readAll n s = .ok ts) ∧ ts.flatMap m.text = s := by
  induction h with
  | done =>
    intro _ _
    refine ⟨fun n hn => ?_, rfl⟩
    cases n with
    | zero => exact absurd hn (by simp)
    | succ n => rfl
  | @symbol x r k ts hh hk hcut hl _ ih =>
    intro h0 h255
    obtain ⟨i1, i2⟩ := ih (fun h => h0 (List.mem_append_right _ h)) (fun h => h255 (List.mem_append_right _ h))
    refine ⟨readAll_step (t := .sym k false) ?_ i1, ?_⟩
    · rw [readToken_plain hl.1.1 (not_esc hh)]
      exact makeToken_symbol hz hsize false h0 h255 hcut hk hl
    · rw [List.flatMap_cons, i2]
      show (if false = true then 92 :: m.symbolString k else m.symbolString k) ++ r = _
      rw [if_neg (by simp), symbolString_eq hk hl.1]
  | @char x r ts hh hc hcut hno _ ih =>
    intro h0 h255
    obtain ⟨i1, i2⟩ := ih (fun h => h0 (List.mem_append_right _ h)) (fun h => h255 (List.mem_append_right _ h))
    have hne := not_esc (m := m) hh
    obtain ⟨c, q, ex, _, _⟩ := isChar_length hc
    refine ⟨readAll_step ?_ i1, ?_⟩
    · rw [readToken_plain (by rw [ex]; simp) hne, makeToken_char hz hsize false h0 h255 hcut hc hno, if_neg ?_]
      rw [ex]
      have := hne c (by rw [ex]; rfl)
      simp [this]
    · rw [List.flatMap_cons, i2]
      show m.escape x ++ r = _
      rw [escape_char hc hne]
  | @escapedSymbol x r k ts hr hk hcut hl _ ih =>
    intro h0 h255
    have h0' : 0 ∉ x ++ r := fun h => h0 (List.mem_cons_of_mem _ h)
    have h255' : 255 ∉ x ++ r := fun h => h255 (List.mem_cons_of_mem _ h)
    obtain ⟨i1, i2⟩ := ih (fun h => h0' (List.mem_append_right _ h)) (fun h => h255' (List.mem_append_right _ h))
    refine ⟨readAll_step ?_ i1, ?_⟩
    · unfold Stream.readToken
      dsimp only
      rw [esc_of_reserved hr ((reserved_iff 92).mpr (by decide)), if_pos rfl, if_neg (by decide), if_pos rfl]
      exact makeToken_symbol hz hsize true h0' h255' hcut hk hl
    · rw [List.flatMap_cons, i2]
      show (if true = true then 92 :: m.symbolString k else m.symbolString k) ++ r = _
      rw [if_pos rfl, symbolString_eq hk hl.1]
      rfl
  | @escapedChar c r ts hr hc hcut hno _ ih =>
    intro h0 h255
    have h0' : 0 ∉ [c] ++ r := fun h => h0 (List.mem_cons_of_mem _ h)
    have h255' : 255 ∉ [c] ++ r := fun h => h255 (List.mem_cons_of_mem _ h)
    obtain ⟨i1, i2⟩ := ih (fun h => h0' (List.mem_append_right _ h)) (fun h => h255' (List.mem_append_right _ h))
    have hlow : c < 128 := by
      by_contra hcc
      have h1 := high_not_escaped c (UInt8.not_lt.mp hcc)
      rw [(reserved_iff c).mp hc] at h1
      cases h1
    refine ⟨readAll_step ?_ i1, ?_⟩
    · unfold Stream.readToken
      dsimp only
      rw [esc_of_reserved hr ((reserved_iff 92).mpr (by decide)), if_pos rfl, if_neg (by decide), if_pos rfl]
      have := makeToken_char (x := [c]) hz hsize true h0' h255' hcut ⟨c, [], rfl, by simp, .inl ⟨hlow, rfl⟩⟩ hno
      rw [if_neg (by simp)] at this
      exact this
    · rw [List.flatMap_cons, i2]
      show m.escape [c] ++ r = _
      unfold Stream.escape
      rw [List.flatMap_cons, esc_of_reserved hr hc]
      rfl
  | @blank b r ts hr hb _ ih =>
    intro h0 h255
    obtain ⟨i1, i2⟩ := ih (fun h => h0 (List.mem_append_right _ h)) (fun h => h255 (List.mem_append_right _ h))
    obtain ⟨b', eb, hread⟩ := readBlank_spec hr hb r
    refine ⟨readAll_step ?_ i1, ?_⟩
    · rw [eb] at hread ⊢
      unfold Stream.readToken
      rw [List.cons_append]
      dsimp only
      rw [esc_of_reserved hr ((reserved_iff 91).mpr (by decide)), if_pos rfl, if_pos rfl, hread]
      rfl
    · rw [List.flatMap_cons, i2]
      rfl
  | @tag x r k ts hr hk hx1 hx2 hcut hl _ ih =>
    intro h0 h255
    obtain ⟨i1, i2⟩ := ih (fun h => h0 (List.mem_append_right _ h)) (fun h => h255 (List.mem_append_right _ h))
    have hmk := makeToken_symbol hz hsize false h0 h255 hcut hk hl
    refine ⟨readAll_step ?_ i1, ?_⟩
    · have htag : m.isTag k = true := by
        unfold Stream.isTag
        rw [symbolString_eq hk hl.1]
        dsimp only
        rw [hx1, hx2]
        rfl
      obtain ⟨x', ex⟩ : ∃ x', x = 60 :: x' := by
        cases x with
        | nil => cases hx1
        | cons c x' => cases hx1; exact ⟨x', rfl⟩
      unfold Stream.readToken
      rw [ex, List.cons_append]
      dsimp only
      rw [esc_of_reserved hr ((reserved_iff 60).mpr (by decide)), if_pos rfl, if_neg (by decide), if_neg (by decide),
        if_pos rfl, ← List.cons_append, ← ex, hmk, Outcome.bind]
      dsimp only
      rw [htag, if_pos rfl]
    · rw [List.flatMap_cons, i2]
      show (if false = true then 92 :: m.symbolString k else m.symbolString k) ++ r = _
      rw [if_neg (by simp), symbolString_eq hk hl.1]
  | @less r ts hr hcut hno _ ih =>
    intro h0 h255
    obtain ⟨i1, i2⟩ := ih (fun h => h0 (List.mem_cons_of_mem _ h)) (fun h => h255 (List.mem_cons_of_mem _ h))
    refine ⟨readAll_step ?_ i1, ?_⟩
    · unfold Stream.readToken
      dsimp only
      rw [esc_of_reserved hr ((reserved_iff 60).mpr (by decide)), if_pos rfl, if_neg (by decide), if_neg (by decide),
        if_pos rfl]
      rcases hno with hno | ⟨k, hk, hl⟩
      · have := makeToken_char (x := [60]) hz hsize false h0 h255 hcut ⟨60, [], rfl, by simp, .inl ⟨by decide, rfl⟩⟩ hno
        rw [List.singleton_append] at this
        rw [this, if_pos ⟨rfl, esc_of_reserved hr ((reserved_iff 60).mpr (by decide))⟩]
        rfl
      · have := makeToken_symbol (x := [60]) hz hsize false h0 h255 hcut hk hl
        rw [List.singleton_append] at this
        have hnt : m.isTag k = false := by
          unfold Stream.isTag
          rw [symbolString_eq hk hl.1]
          rfl
        rw [this, Outcome.bind]
        dsimp only
        rw [hnt]
        rfl
    · rw [List.flatMap_cons, i2]
      rfl
  | @reserved c r ts hr hc h1 h2 h3 _ ih =>
    intro h0 h255
    obtain ⟨i1, i2⟩ := ih (fun h => h0 (List.mem_cons_of_mem _ h)) (fun h => h255 (List.mem_cons_of_mem _ h))
    refine ⟨readAll_step ?_ i1, ?_⟩
    · unfold Stream.readToken
      dsimp only
      rw [esc_of_reserved hr hc, if_pos rfl, if_neg h1, if_neg h2, if_neg h3]
    · rw [List.flatMap_cons, i2]
      rfl

end

/-- C84: a text that has tokens by longest match is read as these tokens, and printing them gives the text back byte for byte. -/
theorem C84_tokens_partial (table : List Bytes) (raw : Bool) (s : Bytes) (ts : List Tok) (h : Tokens table raw s ts)
    (hsize : table.length ≤ 65535) (htable : ∀ x ∈ table, 255 ∉ x) (h0 : 0 ∉ s) (h255 : 255 ∉ s) :
    ∃ m, Stream.make table raw = .ok m ∧ (∀ n, ts.length < n → m.readAll n s = .ok ts) ∧ ts.flatMap m.text = s := by
  obtain ⟨z, e, hz⟩ := stored_all table [] Symbolizer.empty stored_empty htable
  refine ⟨⟨table, z, raw⟩, ?_, ?_⟩
  · unfold Stream.make
    rw [e]
    rfl
  · exact tokens_read (m := ⟨table, z, raw⟩) hz hsize h h0 h255

/-! ## Every text in which no symbol is cut has tokens -/

/-- Whole characters. -/
inductive Chars : Bytes → Prop
  | nil : Chars []
  | cons {x r : Bytes} : IsChar x → Chars r → Chars (x ++ r)

theorem isChar_cancel {x y a b : Bytes} (hx : IsChar x) (hy : IsChar y) (h : x ++ a = y ++ b) : x = y ∧ a = b := by
  obtain ⟨c, q, e1, l1, _⟩ := isChar_length hx
  obtain ⟨d, q', e2, l2, _⟩ := isChar_length hy
  have hcd : c = d := by
    rw [e1, e2] at h
    exact (List.cons.inj h).1
  exact List.append_inj h (by rw [← l1, ← l2, hcd])

theorem chars_drop {x : Bytes} (hx : Chars x) : ∀ r, Chars (x ++ r) → Chars r := by
  induction hx with
  | nil => intro r h; exact h
  | @cons y x' hy _ ih =>
    intro r h
    rw [List.append_assoc] at h
    generalize e : y ++ (x' ++ r) = s at h
    cases h with
    | nil =>
      obtain ⟨c, q, e1, _, _⟩ := isChar_length hy
      rw [e1] at e
      cases e
    | @cons z s' hz hs =>
      obtain ⟨_, e2⟩ := isChar_cancel hy hz e
      exact ih r (by rw [e2]; exact hs)

theorem longest_exists (s : Bytes) : ∀ table : List Bytes, (∀ y ∈ table, y ≠ [] → ¬ y <+: s) ∨
    ∃ x ∈ table, x ≠ [] ∧ x <+: s ∧ ∀ y ∈ table, y <+: s → y.length ≤ x.length
  | [] => .inl (by simp)
  | y :: table => by
    by_cases hy : y ≠ [] ∧ y <+: s
    · rcases longest_exists s table with h | ⟨x, h1, h2, h3, h4⟩
      · refine .inr ⟨y, List.mem_cons_self .., hy.1, hy.2, fun z hz hp => ?_⟩
        rcases List.mem_cons.mp hz with e | e
        · exact Nat.le_of_eq (by rw [e])
        · by_cases hz0 : z = []
          · rw [hz0]; simp
          · exact absurd hp (h z e hz0)
      · by_cases hl : y.length ≤ x.length
        · refine .inr ⟨x, List.mem_cons_of_mem _ h1, h2, h3, fun z hz hp => ?_⟩
          rcases List.mem_cons.mp hz with e | e
          · rw [e]; exact hl
          · exact h4 z e hp
        · refine .inr ⟨y, List.mem_cons_self .., hy.1, hy.2, fun z hz hp => ?_⟩
          rcases List.mem_cons.mp hz with e | e
          · exact Nat.le_of_eq (by rw [e])
          · have := h4 z e hp
            omega
    · rcases longest_exists s table with h | ⟨x, h1, h2, h3, h4⟩
      · refine .inl fun z hz hne hp => ?_
        rcases List.mem_cons.mp hz with e | e
        · subst e; exact hy ⟨hne, hp⟩
        · exact h z e hne hp
      · refine .inr ⟨x, List.mem_cons_of_mem _ h1, h2, h3, fun z hz hp => ?_⟩
        rcases List.mem_cons.mp hz with e | e
        · by_cases hz0 : z = []
          · rw [hz0]; simp
          · exact absurd ⟨e ▸ hz0, e ▸ hp⟩ hy
        · exact h4 z e hp

theorem last_exists (x : Bytes) (table : List Bytes) : x ∈ table →
    ∃ k : Nat, table[k]? = some x ∧ ∀ k' : Nat, table[k']? = some x → k' ≤ k := by
  refine List.reverseRecOn table (by simp) ?_
  intro l y ih h
  by_cases hy : y = x
  · refine ⟨l.length, by rw [hy]; simp, fun k' hk => ?_⟩
    have := (List.getElem?_eq_some_iff.mp hk).1
    rw [List.length_append, List.length_singleton] at this
    omega
  · obtain ⟨k, h1, h2⟩ := ih (by
      rcases List.mem_append.mp h with c | c
      · exact c
      · exact absurd (List.mem_singleton.mp c).symm hy)
    have hk := (List.getElem?_eq_some_iff.mp h1).1
    refine ⟨k, by rw [List.getElem?_append_left hk]; exact h1, fun k' hk' => ?_⟩
    rcases Nat.lt_or_ge k' l.length with c | c
    · rw [List.getElem?_append_left c] at hk'
      exact h2 k' hk'
    · have := (List.getElem?_eq_some_iff.mp hk').1
      rw [List.length_append, List.length_singleton] at this
      have e : k' = l.length := by omega
      subst e
      simp at hk'
      exact absurd hk' hy

/-- A text of whole characters without reserved ones has tokens, if no symbol of the table is cut at its end and the epsilon of the
table does not occur in it. -/
theorem tokens_exist {table : List Bytes} {raw : Bool} (htable : ∀ x ∈ table, Chars x) :
    ∀ (n : Nat) (s : Bytes), s.length ≤ n → Chars s → (raw = true ∨ ∀ c ∈ s, ¬ Reserved c) →
      (∀ r, r <:+ s → r ≠ [] → NotCut table r) → (∀ x, table[0]? = some x → x ≠ [] → ¬ x <:+: s) → ∃ ts, Tokens table raw s ts
  | 0, s, hn, _, _, _, _ => by
    rw [List.length_eq_zero_iff.mp (Nat.le_zero.mp hn)]
    exact ⟨[], .done⟩
  | n + 1, s, hn, hs, hres, hcut, heps => by
    by_cases hs0 : s = []
    · rw [hs0]
      exact ⟨[], .done⟩
    have hnext : ∀ x r : Bytes, s = x ++ r → x ≠ [] → Chars r → ∃ ts, Tokens table raw r ts := by
      intro x r e hx hr
      refine tokens_exist htable n r ?_ hr ?_ ?_ ?_
      · have hl : s.length = x.length + r.length := by rw [e, List.length_append]
        have := List.length_pos_iff.mpr hx
        omega
      · rcases hres with h | h
        · exact .inl h
        · exact .inr fun c hc => h c (by rw [e]; exact List.mem_append_right _ hc)
      · intro q hq hne
        exact hcut q (hq.trans (by rw [e]; exact List.suffix_append ..)) hne
      · intro y hy hne hi
        exact heps y hy hne (hi.trans (by rw [e]; exact (List.suffix_append ..).isInfix))
    have hhead : ∀ x r : Bytes, s = x ++ r → raw = false → ∀ c, x.head? = some c → ¬ Reserved c := by
      intro x r e hr c hc
      rcases hres with h | h
      · rw [h] at hr; cases hr
      · refine h c ?_
        rw [e]
        exact List.mem_append_left _ (List.mem_of_mem_head? hc)
    rcases longest_exists s table with h | ⟨x, h1, h2, h3, h4⟩
    · cases hs with
      | nil => exact absurd rfl hs0
      | @cons x r hx hr =>
        have hx0 : x ≠ [] := by
          obtain ⟨c, q, e1, _, _⟩ := isChar_length hx
          rw [e1]; simp
        obtain ⟨ts, hts⟩ := hnext x r rfl hx0 hr
        exact ⟨_, .char (hhead x r rfl) hx (hcut _ (List.suffix_refl _) hs0) h hts⟩
    · obtain ⟨r, hr⟩ := h3
      obtain ⟨k, k1, k2⟩ := last_exists x table h1
      have hk : 0 < k := by
        rcases Nat.eq_zero_or_pos k with e | e
        · rw [e] at k1
          exact absurd (by rw [← hr]; exact (List.prefix_append ..).isInfix) (heps x k1 h2)
        · exact e
      subst hr
      obtain ⟨ts, hts⟩ := hnext x r rfl h2 (chars_drop (htable x h1) r hs)
      exact ⟨_, .symbol (hhead x r rfl) hk (hcut _ (List.suffix_refl _) hs0) ⟨⟨h2, k1, k2⟩, List.prefix_append .., h4⟩ hts⟩

/-- C84: a text of whole characters, none of them reserved, is printed as it was read, if no symbol of the transducer is cut at its
end. -/
theorem C84_plain_text (table : List Bytes) (raw : Bool) (s : Bytes) (hs : Chars s) (htable : ∀ x ∈ table, Chars x)
    (hres : raw = true ∨ ∀ c ∈ s, ¬ Reserved c) (hcut : ∀ r, r <:+ s → r ≠ [] → NotCut table r)
    (heps : ∀ x, table[0]? = some x → x ≠ [] → ¬ x <:+: s) (hsize : table.length ≤ 65535) (h255 : ∀ x ∈ table, 255 ∉ x)
    (h0s : 0 ∉ s) (h255s : 255 ∉ s) :
    ∃ m ts n, Stream.make table raw = .ok m ∧ m.readAll n s = .ok ts ∧ ts.flatMap m.text = s := by
  obtain ⟨ts, hts⟩ := tokens_exist htable s.length s (Nat.le_refl _) hs hres hcut heps
  obtain ⟨m, h1, h2, h3⟩ := C84_tokens_partial table raw s ts hts hsize h255 h0s h255s
  exact ⟨m, ts, ts.length + 1, h1, h2 _ (by omega), h3⟩

/-! ## Examples -/

/-- The bytes of an ASCII string. -/
def ascii (s : String) : Bytes := s.toList.map fun c => UInt8.ofNat c.toNat

/-- What is read from a text, and what is printed for it. -/
def readText (table : List Bytes) (raw : Bool) (s : Bytes) : Outcome (List Tok × Bytes) :=
  (Stream.make table raw).bind fun m => (m.readAll 20 s).bind fun ts => .ok (ts, ts.flatMap m.text)

/-- The symbols of an example. -/
def exampleTable : List Bytes := [[], ascii "a", ascii "ab", ascii "<n>", ascii "c"]

set_option maxRecDepth 100000 in
/-- The hypotheses of `C84_tokens_partial` can be met: `[x]ab\/<n>é`. -/
example : Tokens exampleTable false (ascii "[x]ab\\/<n>" ++ [195, 169])
    [.blank (ascii "[x]"), .sym 2 false, .char (ascii "/"), .sym 3 false, .char [195, 169]] := by
  have sym : ∀ (k : Nat) (x s : Bytes), x ≠ [] → exampleTable[k]? = some x →
      ((List.range 5).all fun i => decide (exampleTable[i]? = some x → i ≤ k)) = true →
      (exampleTable.all fun y => decide (y <+: s → y.length ≤ x.length)) = true → x <+: s → LongestSymbol exampleTable s k x := by
    intro k x s h1 h2 h3 h4 h5
    refine ⟨⟨h1, h2, fun k' hk => ?_⟩, h5, fun y hy hp => ?_⟩
    · have hlt := (List.getElem?_eq_some_iff.mp hk).1
      have := List.all_eq_true.mp h3 k' (List.mem_range.mpr hlt)
      exact of_decide_eq_true this hk
    · exact of_decide_eq_true (List.all_eq_true.mp h4 y hy) hp
  refine Tokens.blank (b := ascii "[x]") (r := ascii "ab\\/<n>" ++ [195, 169]) rfl
    ⟨ascii "x", .plain (by decide) (by decide) .nil, .inl ⟨by decide, by decide⟩⟩ ?_
  refine Tokens.symbol (k := 2) (x := ascii "ab") (r := ascii "\\/<n>" ++ [195, 169]) ?_ (by decide) ?_ (sym _ _ _ ?_ ?_ ?_ ?_ ?_) ?_
  · intro _ c hc
    cases hc
    unfold Reserved
    decide +kernel
  · unfold NotCut; decide +kernel
  · decide +kernel
  · decide +kernel
  · decide +kernel
  · decide +kernel
  · decide +kernel
  refine Tokens.escapedChar (c := 47) (r := ascii "<n>" ++ [195, 169]) rfl ?_ ?_ ?_ ?_
  · unfold Reserved; decide +kernel
  · unfold NotCut; decide +kernel
  · unfold NoSymbol; decide +kernel
  refine Tokens.tag (k := 3) (x := ascii "<n>") (r := [195, 169]) rfl (by decide) rfl rfl ?_ (sym _ _ _ ?_ ?_ ?_ ?_ ?_) ?_
  · unfold NotCut; decide +kernel
  · decide +kernel
  · decide +kernel
  · decide +kernel
  · decide +kernel
  · decide +kernel
  refine Tokens.char (x := [195, 169]) (r := []) ?_ ⟨195, [169], rfl, by decide, .inr (.inl ⟨by decide, by decide, rfl⟩)⟩ ?_ ?_ .done
  · intro _ c hc
    cases hc
    unfold Reserved
    decide +kernel
  · unfold NotCut; decide +kernel
  · unfold NoSymbol; decide +kernel

/-- And the text is printed back. -/
example : ∃ ts, readText exampleTable false (ascii "[x]ab\\/<n>" ++ [195, 169]) = .ok (ts, ascii "[x]ab\\/<n>" ++ [195, 169]) :=
  ⟨_, rfl⟩

/-- The hypotheses of `C84_plain_text` can be met. -/
example : Chars (ascii "abc") ∧ (∀ c ∈ ascii "abc", ¬ Reserved c) ∧ (∀ r, r <:+ ascii "abc" → r ≠ [] → NotCut exampleTable r) := by
  refine ⟨?_, by unfold Reserved; decide +kernel, ?_⟩
  · have one : ∀ c : UInt8, c < 128 → IsChar [c] := fun c h => ⟨c, [], rfl, by simp, .inl ⟨h, rfl⟩⟩
    exact .cons (x := ascii "a") (r := ascii "bc") (one _ (by decide))
      (.cons (x := ascii "b") (r := ascii "c") (one _ (by decide)) (.cons (x := ascii "c") (r := []) (one _ (by decide)) .nil))
  · intro r hr hne
    have h1 : r <:+ [97, 98, 99] := hr
    have : r = ascii "abc" ∨ r = ascii "bc" ∨ r = ascii "c" ∨ r = [] := by
      simp only [List.suffix_cons_iff, List.suffix_nil] at h1
      exact h1
    unfold NotCut
    rcases this with e | e | e | e
    · rw [e]; decide +kernel
    · rw [e]; decide +kernel
    · rw [e]; decide +kernel
    · exact absurd e hne

/-! ## Where the text is not given back -/

/-- C84 does not hold for a backslash before a character that is not reserved: it is left out. -/
theorem C84_backslash_violated : readText [[]] false (ascii "\\a") = .ok ([.char (ascii "a")], ascii "a") := rfl

/-- C84 does not hold for a symbol that starts with `<` and is no tag: the symbol is read and only `<` is printed. -/
theorem C84_less_violated : readText [[], ascii "<x"] false (ascii "<x") = .ok ([.reserved 60], ascii "<") := rfl

/-- C84 does not hold for a text that stops in the middle of a symbol: what was read of it is lost. -/
theorem C84_cut_violated : readText [[], ascii "abc"] false (ascii "zab") = .ok ([.char (ascii "z")], ascii "z") := rfl

set_option maxRecDepth 100000 in
/-- C84 does not hold for a text that has the name of the epsilon in it: it is taken for the end of the text. -/
theorem C84_epsilon_violated : readText [ascii "@_EPSILON_SYMBOL_@", ascii "a"] true (ascii "a@_EPSILON_SYMBOL_@a") =
    .ok ([.sym 1 false], ascii "a") := rfl

/-- C84 does not hold for a NUL byte, for the byte 255 and for a backslash at the end: nothing is said about what happens. -/
theorem C84_bytes_violated : readText [[]] false [0] = .undefined ∧ readText [[]] false [255] = .undefined ∧
    readText [[]] false (ascii "\\") = .undefined := ⟨rfl, rfl, rfl⟩

end Hfst.Proc
