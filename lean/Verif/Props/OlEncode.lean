import Verif.Model.OlEncode
import Verif.Spec.OlEncode
import Mathlib.Tactic.SplitIfs
import Mathlib.Tactic.ByContra

/-!
# C37: reading the input takes the longest symbol
-/
namespace Hfst.Ol
open Hfst.Basic

/-! ## The trie -/

/-- The number stored for a string. -/
def LetterTrie.get : LetterTrie → Bytes → Nat
  | _, [] => noSymbol
  | t, [c] => t.symbols c
  | t, c :: d :: rest => match t.letters c with
    | none => noSymbol
    | some sub => sub.get (d :: rest)

/-- Nothing is stored under the NUL byte. -/
inductive LetterTrie.NulFree : LetterTrie → Prop
  | mk {t : LetterTrie} : t.letters 0 = none → t.symbols 0 = noSymbol → (∀ c sub, t.letters c = some sub → NulFree sub) →
      NulFree t

theorem empty_nulFree : LetterTrie.empty.NulFree := .mk rfl rfl (by intro c sub h; cases h)

theorem empty_get (s : Bytes) : LetterTrie.empty.get s = noSymbol := by
  match s with
  | [] => rfl
  | [_] => rfl
  | _ :: _ :: _ => rfl

theorem setAt_eq {α : Type} (v : UInt8 → α) (c d : UInt8) (x : α) : setAt v c x d = if d = c then x else v d := rfl

theorem add_spec : ∀ (p : Bytes) (t : LetterTrie) (k : Nat), p ≠ [] → 0 ∉ p → t.NulFree →
    ∃ t', t.add p k = .ok t' ∧ t'.NulFree ∧ (∀ s, t'.get s = if s = p then k else t.get s) ∧
      ∀ c, t'.letters c = none ↔ t.letters c = none ∧ ¬ (p.head? = some c ∧ 1 < p.length)
  | [], _, _, h, _, _ => absurd rfl h
  | [c], t, k, _, h0, .mk h1 h2 h3 => by
    have hc : (0 : UInt8) ≠ c := by simpa using h0
    refine ⟨_, rfl, .mk h1 ?_ h3, ?_, ?_⟩
    · show setAt t.symbols c k 0 = _
      rw [setAt_eq, if_neg hc]
      exact h2
    · intro s
      match s with
      | [] => rfl
      | [d] =>
        show setAt t.symbols c k d = _
        rw [setAt_eq]
        by_cases h : d = c
        · rw [if_pos h, if_pos (by rw [h])]
        · rw [if_neg h, if_neg (by simpa using h)]
          rfl
      | d :: e :: r =>
        rw [if_neg (by simp)]
        rfl
    · intro d
      simp [LetterTrie.letters]
  | c :: d :: rest, t, k, _, h0, .mk h1 h2 h3 => by
    have hc : (0 : UInt8) ≠ c := fun e => h0 (e ▸ List.mem_cons_self ..)
    have hsub : ((t.letters c).getD .empty).NulFree := by
      cases hl : t.letters c with
      | none => exact empty_nulFree
      | some sub => exact h3 c sub hl
    obtain ⟨sub, e, s1, s2, _⟩ := add_spec (d :: rest) _ k (by simp) (fun h => h0 (List.mem_cons_of_mem _ h)) hsub
    refine ⟨.node (setAt t.letters c (some sub)) t.symbols, by rw [LetterTrie.add, e]; rfl, .mk ?_ h2 ?_, ?_, ?_⟩
    · show setAt t.letters c _ 0 = _
      rw [setAt_eq, if_neg hc]
      exact h1
    · intro b sub' hb
      have hb : setAt t.letters c (some sub) b = some sub' := hb
      rw [setAt_eq] at hb
      split_ifs at hb with h
      · injection hb with hb
        rw [← hb]; exact s1
      · exact h3 b sub' hb
    · intro s
      match s with
      | [] => rfl
      | [b] => rw [if_neg (by simp)]; rfl
      | b :: b' :: r =>
        show (match setAt t.letters c (some sub) b with
          | none => noSymbol
          | some sub => sub.get (b' :: r)) = _
        rw [setAt_eq]
        by_cases h : b = c
        · rw [if_pos h]
          dsimp only
          rw [s2]
          subst h
          by_cases h' : b' :: r = d :: rest
          · rw [if_pos h', if_pos (by rw [h'])]
          · rw [if_neg h', if_neg (fun e => h' (List.cons.inj e).2)]
            cases hl : t.letters b with
            | none =>
              rw [Option.getD_none, empty_get]
              show _ = match t.letters b with
                | none => noSymbol
                | some sub => sub.get (b' :: r)
              rw [hl]
            | some sub' =>
              rw [Option.getD_some]
              show _ = match t.letters b with
                | none => noSymbol
                | some sub => sub.get (b' :: r)
              rw [hl]
        · rw [if_neg h, if_neg (fun e => h (List.cons.inj e).1)]
          rfl
    · intro b
      show setAt t.letters c (some sub) b = none ↔ _
      rw [setAt_eq]
      by_cases h : b = c
      · rw [if_pos h]
        subst h
        simp
      · rw [if_neg h]
        have : c ≠ b := fun e => h e.symm
        simp [this]

/-- The longest stored string that the input starts with: the number and the length. -/
def IsLongest (get : Bytes → Nat) (s : Bytes) (r : Nat × Nat) : Prop :=
  (r.1 = noSymbol ∧ r.2 = 1 ∧ ∀ p, p <+: s → get p = noSymbol) ∨
    (r.1 ≠ noSymbol ∧ r.2 ≤ s.length ∧ get (s.take r.2) = r.1 ∧ ∀ p, p <+: s → get p ≠ noSymbol → p.length ≤ r.2)

theorem find_spec : ∀ (s : Bytes) (t : LetterTrie), t.NulFree → ∃ r, t.find s = .ok r ∧ IsLongest t.get s r
  | [], t, .mk h1 h2 _ => by
    rw [LetterTrie.find, h1]
    refine ⟨_, rfl, .inl ⟨h2, rfl, ?_⟩⟩
    intro p hp
    rw [List.prefix_nil.mp hp]
    rfl
  | c :: rest, t, .mk h1 h2 h3 => by
    rw [LetterTrie.find]
    have hprefix : ∀ p, p <+: c :: rest → p = [] ∨ ∃ q, p = c :: q ∧ q <+: rest := by
      intro p hp
      cases p with
      | nil => exact .inl rfl
      | cons d q =>
        obtain ⟨h, h'⟩ := List.cons_prefix_cons.mp hp
        exact .inr ⟨q, by rw [h], h'⟩
    cases hl : t.letters c with
    | none =>
      refine ⟨_, rfl, ?_⟩
      have hget : ∀ d q, t.get (c :: d :: q) = noSymbol := by
        intro d q
        show (match t.letters c with
          | none => noSymbol
          | some sub => sub.get (d :: q)) = _
        rw [hl]
      by_cases hs : t.symbols c = noSymbol
      · refine .inl ⟨hs, rfl, ?_⟩
        intro p hp
        rcases hprefix p hp with rfl | ⟨q, rfl, _⟩
        · rfl
        · cases q with
          | nil => exact hs
          | cons d q => exact hget d q
      · refine .inr ⟨hs, by simp, rfl, ?_⟩
        intro p hp hg
        rcases hprefix p hp with rfl | ⟨q, rfl, _⟩
        · simp
        · cases q with
          | nil => simp
          | cons d q => exact absurd (hget d q) hg
    | some sub =>
      dsimp only
      obtain ⟨r, e, hr⟩ := find_spec rest sub (h3 c sub hl)
      have hget : ∀ d q, t.get (c :: d :: q) = sub.get (d :: q) := by
        intro d q
        show (match t.letters c with
          | none => noSymbol
          | some sub => sub.get (d :: q)) = _
        rw [hl]
      have hget' : ∀ q, q ≠ [] → t.get (c :: q) = sub.get q := by
        intro q hq
        cases q with
        | nil => exact absurd rfl hq
        | cons d q => exact hget d q
      rw [e, Outcome.bind]
      rcases hr with ⟨r1, r2, r3⟩ | ⟨r1, r2, r3, r4⟩
      · rw [if_pos r1, r2]
        refine ⟨_, rfl, ?_⟩
        by_cases hs : t.symbols c = noSymbol
        · refine .inl ⟨hs, rfl, ?_⟩
          intro p hp
          rcases hprefix p hp with rfl | ⟨q, rfl, hq⟩
          · rfl
          · by_cases hq0 : q = []
            · subst hq0; exact hs
            · rw [hget' q hq0]; exact r3 q hq
        · refine .inr ⟨hs, by simp, rfl, ?_⟩
          intro p hp hg
          rcases hprefix p hp with rfl | ⟨q, rfl, hq⟩
          · simp
          · by_cases hq0 : q = []
            · subst hq0; simp
            · rw [hget' q hq0] at hg
              exact absurd (r3 q hq) hg
      · rw [if_neg r1]
        refine ⟨_, rfl, .inr ⟨r1, ?_, ?_, ?_⟩⟩
        · simp only [List.length_cons]; omega
        · have : rest.take r.2 ≠ [] := by
            intro h0
            rw [h0] at r3
            exact r1 r3.symm
          rw [Nat.add_comm 1 r.2, List.take_succ_cons, hget' _ this, r3]
        · intro p hp hg
          rcases hprefix p hp with rfl | ⟨q, rfl, hq⟩
          · simp
          · by_cases hq0 : q = []
            · subst hq0; simp
            · rw [hget' q hq0] at hg
              have := r4 q hq hg
              simp only [List.length_cons]
              omega

/-! ## The encoder -/

/-- The number of a symbol: the last one that it was given. -/
def number (known : List (Bytes × Nat)) (s : Bytes) : Nat :=
  match known.reverse.find? fun e => decide (e.1 = s) with
  | some e => e.2
  | none => noSymbol

theorem number_snoc (known : List (Bytes × Nat)) (p : Bytes) (k : Nat) (s : Bytes) :
    number (known ++ [(p, k)]) s = if s = p then k else number known s := by
  unfold number
  rw [List.reverse_append, List.reverse_singleton, List.singleton_append, List.find?_cons]
  by_cases h : p = s
  · rw [if_pos h.symm]
    simp [h]
  · rw [if_neg fun e => h e.symm]
    simp [h]

/-- What an encoder keeps. -/
structure EncInv (known : List (Bytes × Nat)) (e : Encoder) : Prop where
  nul : e.letters.NulFree
  get : ∀ s, e.letters.get s = number known s
  ascii : ∀ c, e.ascii c ≠ noSymbol → e.ascii c = number known [c] ∧ e.letters.letters c = none
  small : ∀ c, e.ascii c ≠ noSymbol → asciiTokenize c = true

theorem make_inv : EncInv [] ⟨.empty, fun _ => noSymbol⟩ :=
  ⟨empty_nulFree, empty_get, fun _ h => absurd rfl h, fun _ h => absurd rfl h⟩

theorem readSymbol_inv {known : List (Bytes × Nat)} {e : Encoder} (h : EncInv known e) {p : Bytes} {k : Nat} (hp : p ≠ [])
    (h0 : 0 ∉ p) : ∃ e', e.readSymbol p k = .ok e' ∧ EncInv (known ++ [(p, k)]) e' := by
  obtain ⟨t', et, t1, t2, t3⟩ := add_spec p e.letters k hp h0 h.nul
  have hget : ∀ s, t'.get s = number (known ++ [(p, k)]) s := by
    intro s
    rw [t2, h.get, number_snoc]
  match p, hp with
  | [b], _ =>
    have hlen : ¬ 1 < [b].length := by simp
    have hkey : ∀ c, t'.letters c = none ↔ e.letters.letters c = none := by
      intro c
      rw [t3]
      exact ⟨fun h => h.1, fun h => ⟨h, fun h => hlen h.2⟩⟩
    unfold Encoder.readSymbol
    dsimp only
    rw [et, if_neg (fun h => hlen h.1), List.headD_cons]
    refine ⟨_, rfl, t1, hget, ?_, ?_⟩
    · intro c
      dsimp only
      rw [hkey, number_snoc]
      by_cases hc : [b].length = 1 ∧ asciiTokenize b = true ∧ e.letters.hasKey b = false
      · rw [if_pos hc, setAt_eq]
        by_cases hcb : c = b
        · rw [if_pos hcb, if_pos (by rw [hcb])]
          intro _
          refine ⟨rfl, ?_⟩
          have := hc.2.2
          unfold LetterTrie.hasKey at this
          rw [hcb]
          exact Option.isNone_iff_eq_none.mp (by simpa using this)
        · rw [if_neg hcb, if_neg (by simpa using hcb)]
          exact h.ascii c
      · rw [if_neg hc]
        intro hne
        obtain ⟨h1, h2⟩ := h.ascii c hne
        refine ⟨?_, h2⟩
        by_cases hcb : c = b
        · subst hcb
          refine absurd ⟨rfl, h.small c hne, ?_⟩ hc
          unfold LetterTrie.hasKey
          rw [h2]; rfl
        · rw [if_neg (by simpa using hcb)]
          exact h1
    · intro c
      dsimp only
      by_cases hc : [b].length = 1 ∧ asciiTokenize b = true ∧ e.letters.hasKey b = false
      · rw [if_pos hc, setAt_eq]
        by_cases hcb : c = b
        · intro _
          rw [hcb]; exact hc.2.1
        · rw [if_neg hcb]
          exact h.small c
      · rw [if_neg hc]
        exact h.small c
  | b :: d :: q, _ =>
    have hlen : 1 < (b :: d :: q).length := by simp
    have hlen' : ¬ (b :: d :: q).length = 1 := by simp
    have hkey : ∀ c, c ≠ b → (t'.letters c = none ↔ e.letters.letters c = none) := by
      intro c hc
      rw [t3]
      refine ⟨fun h => h.1, fun h => ⟨h, ?_⟩⟩
      rintro ⟨h', _⟩
      injection h' with h'
      exact hc h'.symm
    unfold Encoder.readSymbol
    dsimp only
    rw [et, if_neg (c := (b :: d :: q).length = 1 ∧ _) (fun h => hlen' h.1), List.headD_cons]
    have key : ∀ c, (if 1 < (b :: d :: q).length ∧ asciiTokenize b = true ∧ e.ascii b ≠ noSymbol then setAt e.ascii b noSymbol
        else e.ascii) c = if c = b then noSymbol else e.ascii c := by
      intro c
      by_cases hc : 1 < (b :: d :: q).length ∧ asciiTokenize b = true ∧ e.ascii b ≠ noSymbol
      · rw [if_pos hc, setAt_eq]
      · rw [if_neg hc]
        by_cases hcb : c = b
        · rw [if_pos hcb, hcb]
          by_contra hne
          exact hc ⟨hlen, h.small b hne, hne⟩
        · rw [if_neg hcb]
    refine ⟨_, rfl, t1, hget, ?_, ?_⟩
    · intro c
      dsimp only
      rw [key, number_snoc, if_neg (c := [c] = b :: d :: q) (by simp)]
      by_cases hcb : c = b
      · rw [if_pos hcb]
        exact fun h => absurd rfl h
      · rw [if_neg hcb, hkey c hcb]
        exact h.ascii c
    · intro c
      dsimp only
      rw [key]
      by_cases hcb : c = b
      · rw [if_pos hcb]
        exact fun h => absurd rfl h
      · rw [if_neg hcb]
        exact h.small c

theorem encFind_spec {known : List (Bytes × Nat)} {e : Encoder} (h : EncInv known e) {s : Bytes} (hs : s ≠ []) :
    ∃ r, e.find s = .ok r ∧ IsLongest (number known) s r := by
  match s, hs with
  | c :: rest, _ =>
  unfold Encoder.find
  dsimp only
  rw [List.headD_cons]
  by_cases hc : asciiTokenize c = false ∨ e.ascii c = noSymbol
  · rw [if_pos hc]
    obtain ⟨r, e1, hr⟩ := find_spec (c :: rest) e.letters h.nul
    refine ⟨r, e1, ?_⟩
    have : e.letters.get = number known := funext h.get
    rw [← this]; exact hr
  · rw [if_neg hc]
    have hne : e.ascii c ≠ noSymbol := fun h => hc (.inr h)
    obtain ⟨h1, h2⟩ := h.ascii c hne
    refine ⟨_, rfl, .inr ⟨hne, by simp, h1.symm, ?_⟩⟩
    intro p hp hg
    match p with
    | [] => simp
    | [_] => simp
    | b :: d :: q =>
      obtain ⟨e1, _⟩ := List.cons_prefix_cons.mp hp
      subst e1
      rw [← h.get] at hg
      refine absurd ?_ hg
      show (match e.letters.letters b with
        | none => noSymbol
        | some sub => sub.get (d :: q)) = _
      rw [h2]

/-- The symbols of a table with their numbers. -/
def numbered : List Bytes → Nat → List (Bytes × Nat)
  | [], _ => []
  | x :: xs, k => (x, k) :: numbered xs (k + 1)

theorem readSymbols_inv : ∀ (xs : List Bytes) (k : Nat) (known : List (Bytes × Nat)) (e : Encoder), EncInv known e →
    (∀ x ∈ xs, x ≠ [] ∧ 0 ∉ x) → ∃ e', Encoder.readSymbols xs k e = .ok e' ∧ EncInv (known ++ numbered xs k) e'
  | [], _, known, e, h, _ => ⟨e, rfl, by rw [numbered, List.append_nil]; exact h⟩
  | x :: xs, k, known, e, h, hx => by
    obtain ⟨e1, r1, i1⟩ := readSymbol_inv h (k := k) (hx x (List.mem_cons_self ..)).1 (hx x (List.mem_cons_self ..)).2
    obtain ⟨e2, r2, i2⟩ := readSymbols_inv xs (k + 1) _ e1 i1 fun y hy => hx y (List.mem_cons_of_mem _ hy)
    refine ⟨e2, ?_, ?_⟩
    · rw [Encoder.readSymbols, r1]; exact r2
    · rw [numbered]
      rw [List.append_assoc] at i2
      exact i2

theorem numbered_snoc : ∀ (xs : List Bytes) (k : Nat) (x : Bytes),
    numbered (xs ++ [x]) k = numbered xs k ++ [(x, k + xs.length)]
  | [], k, x => by simp [numbered]
  | y :: ys, k, x => by
    rw [List.cons_append, numbered, numbered_snoc ys (k + 1) x, numbered, List.cons_append, List.length_cons]
    rw [Nat.add_assoc, Nat.add_comm 1]

/-- What is known after some new symbols were added to a table. -/
def knownOf (table : List Bytes) (n : Nat) (extra : List Bytes) : List (Bytes × Nat) :=
  numbered (table.take n) 0 ++ numbered extra table.length

theorem mem_numbered : ∀ (xs : List Bytes) (k : Nat) (e : Bytes × Nat),
    e ∈ numbered xs k ↔ k ≤ e.2 ∧ xs[e.2 - k]? = some e.1
  | [], k, e => by simp [numbered]
  | x :: xs, k, e => by
    rw [numbered, List.mem_cons, mem_numbered xs (k + 1) e]
    constructor
    · rintro (rfl | ⟨h1, h2⟩)
      · simp
      · refine ⟨by omega, ?_⟩
        obtain ⟨m, hm⟩ : ∃ m, e.2 = k + 1 + m := ⟨e.2 - (k + 1), by omega⟩
        rw [hm] at h2 ⊢
        rw [show k + 1 + m - k = m + 1 by omega, List.getElem?_cons_succ]
        rw [show k + 1 + m - (k + 1) = m by omega] at h2
        exact h2
    · rintro ⟨h1, h2⟩
      by_cases hk : e.2 = k
      · left
        rw [hk, Nat.sub_self, List.getElem?_cons_zero] at h2
        injection h2 with h2
        exact Prod.ext h2.symm hk
      · right
        refine ⟨by omega, ?_⟩
        obtain ⟨m, hm⟩ : ∃ m, e.2 = k + 1 + m := ⟨e.2 - (k + 1), by omega⟩
        rw [hm] at h2 ⊢
        rw [show k + 1 + m - k = m + 1 by omega, List.getElem?_cons_succ] at h2
        rw [show k + 1 + m - (k + 1) = m by omega]
        exact h2

theorem mem_knownOf {table : List Bytes} {n : Nat} (hn : n ≤ table.length) {extra : List Bytes} {x : Bytes} {k : Nat} :
    (x, k) ∈ knownOf table n extra ↔ Knows n table.length (table ++ extra) x k := by
  unfold knownOf Knows
  rw [List.mem_append, mem_numbered, mem_numbered]
  constructor
  · rintro (⟨_, h⟩ | ⟨h1, h2⟩)
    · rw [Nat.sub_zero, List.getElem?_take] at h
      dsimp only at h
      split_ifs at h with hk
      · refine ⟨.inl hk, ?_⟩
        rw [List.getElem?_append_left (by omega)]
        exact h
    · dsimp only at h1 h2
      refine ⟨.inr h1, ?_⟩
      rw [List.getElem?_append_right h1]
      exact h2
  · rintro ⟨h | h, e⟩
    · left
      refine ⟨Nat.zero_le _, ?_⟩
      dsimp only
      rw [Nat.sub_zero, List.getElem?_take, if_pos h]
      rw [List.getElem?_append_left (by omega)] at e
      exact e
    · right
      refine ⟨h, ?_⟩
      rw [List.getElem?_append_right h] at e
      exact e

/-- Numbers grow along the list. -/
def Grows (known : List (Bytes × Nat)) : Prop := known.Pairwise fun a b => a.2 < b.2

theorem numbered_grows : ∀ (xs : List Bytes) (k : Nat), Grows (numbered xs k)
  | [], _ => List.Pairwise.nil
  | x :: xs, k => by
    refine List.Pairwise.cons ?_ (numbered_grows xs (k + 1))
    intro e he
    have := ((mem_numbered xs (k + 1) e).mp he).1
    show k < e.2
    omega

theorem knownOf_grows {table : List Bytes} {n : Nat} (hn : n ≤ table.length) (extra : List Bytes) :
    Grows (knownOf table n extra) := by
  refine List.pairwise_append.mpr ⟨numbered_grows _ _, numbered_grows _ _, ?_⟩
  intro a ha b hb
  have h1 := ((mem_numbered _ _ a).mp ha).2
  have h2 := ((mem_numbered _ _ b).mp hb).1
  have := (List.getElem?_eq_some_iff.mp h1).1
  rw [List.length_take] at this
  omega

theorem number_some {known : List (Bytes × Nat)} (hg : Grows known) {s : Bytes} {k : Nat} (h : (s, k) ∈ known)
    (hmax : ∀ k', (s, k') ∈ known → k' ≤ k) : number known s = k := by
  unfold number
  cases hf : known.reverse.find? fun e => decide (e.1 = s) with
  | none =>
    have := List.find?_eq_none.mp hf (s, k) (List.mem_reverse.mpr h)
    simp at this
  | some e =>
    dsimp only
    have h1 : e.1 = s := by simpa using List.find?_some hf
    have h2 := List.mem_reverse.mp (List.mem_of_find?_eq_some hf)
    have hle : e.2 ≤ k := hmax e.2 (by rw [← h1]; exact h2)
    refine Nat.le_antisymm hle ?_
    by_contra hlt
    have hlt : e.2 < k := by omega
    obtain ⟨_, as, bs, hsplit, has⟩ := List.find?_eq_some_iff_append.mp hf
    have hr : Grows known := hg
    unfold Grows at hr
    rw [← List.reverse_reverse known, hsplit, List.pairwise_reverse] at hr
    have hm : (s, k) ∈ as ++ e :: bs := by rw [← hsplit]; exact List.mem_reverse.mpr h
    rcases List.mem_append.mp hm with hm | hm
    · have := has _ hm
      simp at this
    · rcases List.mem_cons.mp hm with hm | hm
      · rw [← hm] at hlt
        simp at hlt
      · have := List.rel_of_pairwise_cons (List.pairwise_append.mp hr).2.1 hm
        dsimp only at this
        omega

theorem number_last {known : List (Bytes × Nat)} (hg : Grows known) {s : Bytes} (h : number known s ≠ noSymbol) :
    (s, number known s) ∈ known ∧ ∀ k', (s, k') ∈ known → k' ≤ number known s := by
  unfold number at h ⊢
  cases hf : known.reverse.find? fun e => decide (e.1 = s) with
  | none => rw [hf] at h; exact absurd rfl h
  | some e =>
    dsimp only
    have h1 : e.1 = s := by simpa using List.find?_some hf
    have h2 := List.mem_reverse.mp (List.mem_of_find?_eq_some hf)
    refine ⟨by rw [← h1]; exact h2, ?_⟩
    intro k' hk'
    obtain ⟨_, as, bs, hsplit, has⟩ := List.find?_eq_some_iff_append.mp hf
    have hr : Grows known := hg
    unfold Grows at hr
    rw [← List.reverse_reverse known, hsplit, List.pairwise_reverse] at hr
    have hm : (s, k') ∈ as ++ e :: bs := by rw [← hsplit]; exact List.mem_reverse.mpr hk'
    rcases List.mem_append.mp hm with hm | hm
    · have := has _ hm
      simp at this
    · rcases List.mem_cons.mp hm with hm | hm
      · rw [← hm]
        exact Nat.le_refl k'
      · have := List.rel_of_pairwise_cons (List.pairwise_append.mp hr).2.1 hm
        dsimp only at this
        omega

theorem number_of_mem {known : List (Bytes × Nat)} (hs : ∀ e ∈ known, e.2 < noSymbol) {s : Bytes} {k : Nat}
    (h : (s, k) ∈ known) : number known s ≠ noSymbol := by
  unfold number
  cases hf : known.reverse.find? fun e => decide (e.1 = s) with
  | none =>
    have := List.find?_eq_none.mp hf (s, k) (List.mem_reverse.mpr h)
    simp at this
  | some e => exact Nat.ne_of_lt (hs e (List.mem_reverse.mp (List.mem_of_find?_eq_some hf)))

/-- The longest known symbol, from the numbers. -/
theorem longest_of {table : List Bytes} {n : Nat} (hn : n ≤ table.length) {extra : List Bytes}
    (hsize : table.length + extra.length < noSymbol + 1) {s : Bytes} {r : Nat × Nat}
    (h : IsLongest (number (knownOf table n extra)) s r) :
    (r.1 = noSymbol ∧ Unknown n table.length (table ++ extra) s) ∨
      (r.1 ≠ noSymbol ∧ r.2 ≤ s.length ∧ Longest n table.length (table ++ extra) s (s.take r.2) r.1) := by
  have hlt : ∀ e ∈ knownOf table n extra, e.2 < noSymbol := by
    intro e he
    have := (mem_knownOf hn (x := e.1) (k := e.2)).mp he
    have := (List.getElem?_eq_some_iff.mp this.2).1
    rw [List.length_append] at this
    omega
  rcases h with ⟨h1, _, h3⟩ | ⟨h1, h2, h3, h4⟩
  · left
    refine ⟨h1, ?_⟩
    intro x k hk hp
    exact number_of_mem hlt ((mem_knownOf hn).mpr hk) (h3 x hp)
  · right
    refine ⟨h1, h2, ?_⟩
    have hne : number (knownOf table n extra) (s.take r.2) ≠ noSymbol := by rw [h3]; exact h1
    obtain ⟨g1, g2⟩ := number_last (knownOf_grows hn extra) hne
    rw [h3] at g1 g2
    refine ⟨(mem_knownOf hn).mp g1, List.take_prefix _ _, ?_, ?_⟩
    · intro y k' hk' hp
      have := h4 y hp (number_of_mem hlt ((mem_knownOf hn).mpr hk'))
      rw [List.length_take]
      omega
    · intro k' hk'
      exact g2 k' ((mem_knownOf hn).mpr hk')

theorem make_knows {table : List Bytes} {n : Nat} (hn : n ≤ table.length) (hfine : ∀ x ∈ table, x ≠ [] ∧ 0 ∉ x) :
    ∃ e, Encoder.make table n = .ok e ∧ EncInv (knownOf table n []) e := by
  unfold Encoder.make
  rw [if_neg (by omega)]
  obtain ⟨e, h1, h2⟩ := readSymbols_inv (table.take n) 0 [] _ make_inv fun x hx => hfine x (List.mem_of_mem_take hx)
  refine ⟨e, h1, ?_⟩
  unfold knownOf
  rw [numbered, List.append_nil]
  exact h2

/-! ## C37 -/

/-- **C37, one symbol.**  For an encoder built from the first `n` symbols of a table, `find_key` finds the longest known symbol that
the input starts with, and moves behind it; or says that there is none. -/
theorem C37_longest (table : List Bytes) (n : Nat) (hn : n ≤ table.length) (hfine : ∀ x ∈ table, x ≠ [] ∧ 0 ∉ x)
    (hsize : table.length ≤ 65535) : ∃ e, Encoder.make table n = .ok e ∧ ∀ s, s ≠ [] → ∃ k m, e.find s = .ok (k, m) ∧
      ((k = 65535 ∧ Unknown n table.length table s) ∨
        (k < 65535 ∧ ∃ x rest, s = x ++ rest ∧ m = x.length ∧ Longest n table.length table s x k)) := by
  obtain ⟨e, h1, h2⟩ := make_knows hn hfine
  refine ⟨e, h1, ?_⟩
  intro s hs
  obtain ⟨r, h3, h4⟩ := encFind_spec h2 hs
  refine ⟨r.1, r.2, h3, ?_⟩
  have := longest_of hn (extra := []) (by simp only [List.length_nil]; show _ < 65535 + 1; omega) h4
  rw [List.append_nil] at this
  rcases this with ⟨h5, h6⟩ | ⟨_, h6, h7⟩
  · exact .inl ⟨h5, h6⟩
  · refine .inr ⟨?_, s.take r.2, s.drop r.2, (List.take_append_drop _ _).symm, ?_, h7⟩
    · have := (List.getElem?_eq_some_iff.mp h7.1.2).1
      omega
    · rw [List.length_take]; omega

theorem nByte_le (c : UInt8) : Utf8.nByteUtf8 c ≤ 4 := by
  unfold Utf8.nByteUtf8
  split_ifs <;> omega

theorem input_reads {table : List Bytes} {n : Nat} (hn : n ≤ table.length) : ∀ (fuel : Nat) (s : Bytes) (extra : List Bytes)
    (e : Encoder), EncInv (knownOf table n extra) e → 0 ∉ s →
    table.length + extra.length + s.length ≤ noSymbol → s.length < fuel →
    (∃ ks extra' e', initializeInput fuel s (table ++ extra) e = .ok (ks, table ++ extra', e') ∧
      EncInv (knownOf table n extra') e' ∧ Reads n table.length (table ++ extra) s ks (table ++ extra')) ∨
    (initializeInput fuel s (table ++ extra) e = .undefined ∧ CutOff n table.length (table ++ extra) s)
  | 0, _, _, _, _, _, _, hf => by omega
  | fuel + 1, [], extra, e, h, _, _, _ => .inl ⟨some [], extra, e, rfl, h, .done⟩
  | fuel + 1, c :: rest, extra, e, h, h0, hsize, hf => by
    obtain ⟨r, hr, hl⟩ := encFind_spec h (s := c :: rest) (by simp)
    rw [initializeInput, hr, Outcome.bind]
    rcases longest_of hn (by omega) hl with ⟨l1, l2⟩ | ⟨l1, l2, l3⟩
    · rw [if_pos l1]
      dsimp only
      by_cases hz : Utf8.nByteUtf8 c = 0
      · rw [if_pos hz]
        exact .inl ⟨none, extra, e, rfl, h, .bad l2 hz⟩
      · rw [if_neg hz]
        by_cases hcut : (c :: rest).length < Utf8.nByteUtf8 c
        · rw [if_pos hcut]
          exact .inr ⟨rfl, .here l2 hcut⟩
        · rw [if_neg hcut]
          have hlen : ((c :: rest).take (Utf8.nByteUtf8 c)).length = Utf8.nByteUtf8 c := by
            rw [List.length_take]; omega
          have hx0 : (c :: rest).take (Utf8.nByteUtf8 c) ≠ [] := by
            intro h
            rw [h] at hlen
            exact hz hlen.symm
          obtain ⟨e1, r1, i1⟩ := readSymbol_inv h (k := (table ++ extra).length) hx0
            (fun h => h0 (List.mem_of_mem_take h))
          rw [r1, Outcome.bind]
          have i2 : EncInv (knownOf table n (extra ++ [(c :: rest).take (Utf8.nByteUtf8 c)])) e1 := by
            unfold knownOf
            rw [numbered_snoc, ← List.append_assoc, ← List.length_append]
            exact i1
          have hd : ((c :: rest).drop (Utf8.nByteUtf8 c)).length < (c :: rest).length := by
            rw [List.length_drop]
            simp only [List.length_cons]
            omega
          have hsplit : c :: rest = (c :: rest).take (Utf8.nByteUtf8 c) ++ (c :: rest).drop (Utf8.nByteUtf8 c) :=
            (List.take_append_drop _ _).symm
          have hhead : ((c :: rest).take (Utf8.nByteUtf8 c)).head? = some c := by
            obtain ⟨m, hm⟩ : ∃ m, Utf8.nByteUtf8 c = m + 1 := ⟨Utf8.nByteUtf8 c - 1, by omega⟩
            rw [hm]; rfl
          have ih := input_reads hn fuel ((c :: rest).drop (Utf8.nByteUtf8 c))
            (extra ++ [(c :: rest).take (Utf8.nByteUtf8 c)]) e1 i2 (fun h => h0 (List.mem_of_mem_drop h))
            (by rw [List.length_append, List.length_singleton]; omega) (by omega)
          rw [← List.append_assoc] at ih
          rcases ih with ⟨ks, extra', e', e1, e2, e3⟩ | ⟨e1, e2⟩
          · rw [e1]
            refine .inl ⟨_, extra', e', rfl, e2, ?_⟩
            rw [hsplit]
            exact .new (by rw [← hsplit]; exact l2) hhead hlen e3
          · rw [e1]
            refine .inr ⟨rfl, ?_⟩
            rw [hsplit]
            exact .new (by rw [← hsplit]; exact l2) hhead hlen e2
    · rw [if_neg l1]
      rw [if_neg (by omega)]
      have hpos : r.2 ≠ 0 := by
        intro h2
        rcases hl with ⟨q, _⟩ | ⟨q, _, q', _⟩
        · exact l1 q
        · rw [h2, List.take_zero] at q'
          have hne : number (knownOf table n extra) [] ≠ noSymbol := by rw [q']; exact q
          rw [← h.get] at hne
          exact hne rfl
      have hd : ((c :: rest).drop r.2).length < (c :: rest).length := by
        rw [List.length_drop]
        simp only [List.length_cons]
        omega
      have hsplit : c :: rest = (c :: rest).take r.2 ++ (c :: rest).drop r.2 := (List.take_append_drop _ _).symm
      rcases input_reads hn fuel ((c :: rest).drop r.2) extra e h (fun h => h0 (List.mem_of_mem_drop h)) (by omega) (by omega)
        with ⟨ks, extra', e', e1, e2, e3⟩ | ⟨e1, e2⟩
      · rw [e1]
        refine .inl ⟨_, extra', e', rfl, e2, ?_⟩
        rw [hsplit]
        exact .known (by rw [← hsplit]; exact l3) e3
      · rw [e1]
        refine .inr ⟨rfl, ?_⟩
        rw [hsplit]
        exact .known (by rw [← hsplit]; exact l3) e2

/-- **C37, the whole input.**  The input is read symbol by symbol, the longest known symbol first; a character that is not known is
added to the table and is known from then on.  The reading fails at a byte that starts no character and no symbol, and is undefined if
the last character is cut off. -/
theorem C37_input (table : List Bytes) (n : Nat) (hn : n ≤ table.length) (hfine : ∀ x ∈ table, x ≠ [] ∧ 0 ∉ x) (s : Bytes)
    (h0 : 0 ∉ s) (hsize : table.length + s.length ≤ 65535) : ∃ e, Encoder.make table n = .ok e ∧ ∀ fuel, s.length < fuel →
      (∃ ks table' e', initializeInput fuel s table e = .ok (ks, table', e') ∧ Reads n table.length table s ks table') ∨
      (initializeInput fuel s table e = .undefined ∧ CutOff n table.length table s) := by
  obtain ⟨e, h1, h2⟩ := make_knows hn hfine
  refine ⟨e, h1, ?_⟩
  intro fuel hf
  have := input_reads hn fuel s [] e h2 h0 hsize hf
  rw [List.append_nil] at this
  rcases this with ⟨ks, extra', e', e1, _, e3⟩ | h
  · exact .inl ⟨ks, _, e', e1, e3⟩
  · exact .inr h

/-- **C37, the table only grows.** -/
theorem C37_grows {n size : Nat} {table table' : List Bytes} {s : Bytes} {ks : Option (List Nat)}
    (h : Reads n size table s ks table') : table <+: table' := by
  induction h with
  | done => exact List.prefix_rfl
  | known _ _ ih => exact ih
  | new _ _ _ _ ih => exact (List.prefix_append _ _).trans ih
  | bad _ _ => exact List.prefix_rfl

theorem prefix_get {l l' : List Bytes} (h : l <+: l') {k : Nat} {x : Bytes} (hx : l[k]? = some x) : l'[k]? = some x := by
  obtain ⟨t, rfl⟩ := h
  rw [List.getElem?_append_left (List.getElem?_eq_some_iff.mp hx).1]
  exact hx

/-- **C37, the tape spells the input**: the symbols with the numbers on the tape, in the table as it is afterwards, give back the
input. -/
theorem C37_spells {n size : Nat} {table table' : List Bytes} {s : Bytes} {ks : List Nat}
    (h : Reads n size table s (some ks) table') : ks.flatMap (fun k => (table'[k]?).getD []) = s := by
  generalize hq : some ks = q at h
  induction h generalizing ks with
  | done =>
    injection hq with hq
    rw [hq]; rfl
  | @known table table' x rest k q hl hr ih =>
    match q, hq with
    | some ks', hq =>
      injection hq with hq
      rw [hq, List.flatMap_cons, ih rfl]
      congr 1
      have := hl.1.2
      have := prefix_get (C37_grows hr) this
      rw [this]; rfl
  | @new table table' x rest c q hu hh hlen hr ih =>
    match q, hq with
    | some ks', hq =>
      injection hq with hq
      rw [hq, List.flatMap_cons, ih rfl]
      congr 1
      have : (table ++ [x])[table.length]? = some x := by simp
      have := prefix_get (C37_grows hr) this
      rw [this]; rfl
  | bad _ _ => cases hq

theorem chars_drop {p : Bytes} (hp : Chars p) : ∀ {r : Bytes}, Chars (p ++ r) → Chars r := by
  induction hp with
  | nil => exact fun h => h
  | @char c x rest hlen hr ih =>
    intro r h
    generalize hq : c :: x ++ rest ++ r = q at h
    have hq' := hq
    cases h with
    | nil => simp at hq
    | @char c' x' rest' hlen' hr' =>
      simp only [List.cons_append, List.append_assoc] at hq
      obtain ⟨hc, hq1⟩ := List.cons.inj hq
      subst hc
      obtain ⟨_, hq2⟩ := List.append_inj (s₁ := x) (s₂ := x') hq1 (by omega)
      subst hq2
      exact ih hr'

theorem chars_not_cut {n size : Nat} {table : List Bytes} {s : Bytes} (h : CutOff n size table s) :
    (∀ k x, (k < n ∨ size ≤ k) → table[k]? = some x → Chars x) → ¬ Chars s := by
  induction h with
  | @here table c rest hu hl =>
    intro _ h
    generalize hq : c :: rest = q at h
    cases h with
    | nil => cases hq
    | @char c' x' rest' hlen' hr' =>
      have hlen := congrArg List.length hq
      obtain ⟨hc, _⟩ := List.cons.inj hq
      subst hc
      simp only [List.length_cons, List.length_append] at hl hlen
      omega
  | @known table x rest k hl _ ih =>
    intro ht h
    exact ih ht (chars_drop (ht k x hl.1.1 hl.1.2) h)
  | @new table x rest c hu hh hlen _ ih =>
    intro ht h
    have hx : Chars x := by
      match x, hh with
      | c' :: x', hh =>
        injection hh with hh
        subst hh
        have := Chars.char (c := c') (x := x') (rest := []) (by simpa using hlen) .nil
        simpa using this
    refine ih ?_ (chars_drop hx h)
    intro k y hk hy
    rw [List.getElem?_append] at hy
    split_ifs at hy with hkl
    · exact ht k y hk hy
    · have : y = x := by
        have h1 := (List.getElem?_eq_some_iff.mp hy).1
        have : k - table.length = 0 := by simpa using h1
        rw [this] at hy
        simpa using hy.symm
      rw [this]; exact hx

theorem chars_read {n size : Nat} {table table' : List Bytes} {s : Bytes} {ks : Option (List Nat)}
    (h : Reads n size table s ks table') : (∀ k x, (k < n ∨ size ≤ k) → table[k]? = some x → Chars x) → Chars s →
    ks.isSome = true := by
  induction h with
  | done => exact fun _ _ => rfl
  | @known table table' x rest k q hl _ ih =>
    intro ht h
    have := ih ht (chars_drop (ht k x hl.1.1 hl.1.2) h)
    rw [Option.isSome_map]; exact this
  | @new table table' x rest c q hu hh hlen _ ih =>
    intro ht h
    have hx : Chars x := by
      match x, hh with
      | c' :: x', hh =>
        injection hh with hh
        subst hh
        have := Chars.char (c := c') (x := x') (rest := []) (by simpa using hlen) .nil
        simpa using this
    rw [Option.isSome_map]
    refine ih ?_ (chars_drop hx h)
    intro k y hk hy
    rw [List.getElem?_append] at hy
    split_ifs at hy with hkl
    · exact ht k y hk hy
    · have : y = x := by
        have h1 := (List.getElem?_eq_some_iff.mp hy).1
        have : k - table.length = 0 := by simpa using h1
        rw [this] at hy
        simpa using hy.symm
      rw [this]; exact hx
  | @bad table c rest hu hz =>
    intro _ h
    generalize hq : c :: rest = q at h
    cases h with
    | nil => cases hq
    | @char c' x' rest' hlen' hr' =>
      obtain ⟨rfl, _⟩ := List.cons.inj hq
      omega

/-- **C37, UTF-8.**  If the symbols and the input are strings of whole characters, then the whole input is read. -/
theorem C37_utf8 (table : List Bytes) (n : Nat) (hn : n ≤ table.length)
    (hfine : ∀ x ∈ table, x ≠ [] ∧ 0 ∉ x ∧ Chars x) (s : Bytes) (h0 : 0 ∉ s) (hs : Chars s)
    (hsize : table.length + s.length ≤ 65535) : ∃ e, Encoder.make table n = .ok e ∧ ∀ fuel, s.length < fuel →
      ∃ ks table' e', initializeInput fuel s table e = .ok (some ks, table', e') ∧
        Reads n table.length table s (some ks) table' := by
  obtain ⟨e, h1, h2⟩ := C37_input table n hn (fun x hx => ⟨(hfine x hx).1, (hfine x hx).2.1⟩) s h0 hsize
  refine ⟨e, h1, ?_⟩
  intro fuel hf
  have ht : ∀ k x, (k < n ∨ table.length ≤ k) → table[k]? = some x → Chars x :=
    fun k x _ hx => (hfine x (List.mem_of_getElem? hx)).2.2
  rcases h2 fuel hf with ⟨ks, table', e', e1, e2⟩ | ⟨_, h⟩
  · obtain ⟨ks', rfl⟩ := Option.isSome_iff_exists.mp (chars_read e2 ht hs)
    exact ⟨ks', table', e', e1, e2⟩
  · exact absurd hs (chars_not_cut h ht)

/-- The symbols of the examples: `a`, `ab`, `abc`, `b`. -/
def exampleTable : List Bytes := [[97], [97, 98], [97, 98, 99], [98]]

/-- `ababcüa` is read as `ab`, `abc`, the new `ü`, `a`. -/
example : (do
    match Encoder.make exampleTable 4 with
    | .ok e => match initializeInput 20 [97, 98, 97, 98, 99, 195, 188, 97] exampleTable e with
      | .ok (ks, t, _) => some (ks, t)
      | _ => none
    | _ => none) = some (some [1, 2, 4, 0], exampleTable ++ [[195, 188]]) := by decide +kernel

/-- The hypotheses hold for this table and this input. -/
example : (∀ x ∈ exampleTable, x ≠ [] ∧ 0 ∉ x ∧ Chars x) ∧ Chars [97, 98, 97, 98, 99, 195, 188, 97] := by
  have h1 : ∀ (c : UInt8) (rest : Bytes), Utf8.nByteUtf8 c = 1 → Chars rest → Chars (c :: rest) :=
    fun c rest h hr => .char (x := []) (by simpa using h.symm) hr
  have a : Utf8.nByteUtf8 97 = 1 := by decide
  have b : Utf8.nByteUtf8 98 = 1 := by decide
  have c : Utf8.nByteUtf8 99 = 1 := by decide
  refine ⟨?_, ?_⟩
  · intro x hx
    simp only [exampleTable, List.mem_cons, List.not_mem_nil, or_false] at hx
    rcases hx with rfl | rfl | rfl | rfl
    · exact ⟨by decide, by decide, h1 _ _ a .nil⟩
    · exact ⟨by decide, by decide, h1 _ _ a (h1 _ _ b .nil)⟩
    · exact ⟨by decide, by decide, h1 _ _ a (h1 _ _ b (h1 _ _ c .nil))⟩
    · exact ⟨by decide, by decide, h1 _ _ b .nil⟩
  · exact h1 _ _ a (h1 _ _ b (h1 _ _ a (h1 _ _ b (h1 _ _ c
      (.char (c := 195) (x := [188]) (rest := [97]) (by decide) (h1 _ _ a .nil))))))

/-- **C37 fails for an input that ends inside a character**: the bytes behind the end of the input are read. -/
theorem C37_cut_violated : ∃ (table : List Bytes) (s : Bytes) (e : Encoder), Encoder.make table table.length = .ok e ∧
    0 ∉ s ∧ ∀ fuel, initializeInput (fuel + 1) s table e = .undefined := by
  obtain ⟨e, h1, h2⟩ := make_knows (table := exampleTable) (n := 4) (by decide) (by decide)
  refine ⟨exampleTable, [195], e, h1, by decide, ?_⟩
  intro fuel
  obtain ⟨r, hr, hl⟩ := encFind_spec h2 (s := [195]) (by simp)
  rw [initializeInput, hr, Outcome.bind]
  have hnone : r.1 = noSymbol := by
    rcases longest_of (table := exampleTable) (n := 4) (extra := []) (by decide) (by decide) hl with h | ⟨_, h5, h6⟩
    · exact h.1
    · exfalso
      obtain ⟨⟨_, h7⟩, h8, _⟩ := h6
      have hm : [195].take r.2 ∈ exampleTable := by
        have := List.mem_of_getElem? h7
        simpa using this
      rcases (show r.2 = 0 ∨ r.2 = 1 by simp only [List.length_singleton] at h5; omega) with h | h <;> rw [h] at hm <;>
        revert hm <;> decide
  rw [if_pos hnone]
  rfl

end Hfst.Ol
