import Verif.Model.Tokenizer

/-! Lemmas about the multicharacter symbol trie of the tokenizer. -/
namespace Hfst.Tok

/-- The strings stored in a trie. -/
def Trie.mem : Trie → Bytes → Bool
  | _, [] => false
  | t, [b] => (t.leafs[b.toNat]?).getD false
  | t, b :: c :: s =>
    match t.rests[b.toNat]? with
    | some (some sub) => sub.mem (c :: s)
    | _ => false

/-- Both vectors have 255 entries and nothing hangs under the NUL byte. -/
inductive Trie.Wf : Trie → Prop
  | mk (r : List (Option Trie)) (l : List Bool) (hr : r.length = 255) (hl : l.length = 255)
      (hr0 : r[0]? = some none) (hl0 : l[0]? = some false)
      (hsub : ∀ (i : Nat) (sub : Trie), r[i]? = some (some sub) → Trie.Wf sub) : Trie.Wf (.node r l)

theorem Trie.empty_wf : Trie.empty.Wf := by
  refine .mk _ _ List.length_replicate List.length_replicate (by rw [List.getElem?_replicate, if_pos (by decide)])
    (by rw [List.getElem?_replicate, if_pos (by decide)]) ?_
  intro i sub h
  rw [List.getElem?_replicate] at h
  split at h <;> simp at h

theorem Trie.empty_mem (s : Bytes) : Trie.empty.mem s = false := by
  match s with
  | [] => rfl
  | [b] =>
    simp only [Trie.mem, Trie.empty, Trie.leafs, List.getElem?_replicate]
    split <;> simp
  | b :: c :: s =>
    simp only [Trie.mem, Trie.empty, Trie.rests, List.getElem?_replicate]
    split
    · rename_i h; split at h <;> simp at h
    · rfl

/-- Symbols the trie can store: C strings without the byte 255. -/
def Ok (p : Bytes) : Prop := ∀ b ∈ p, b ≠ 0 ∧ b ≠ 255

theorem toNat_lt_255 {b : Byte} (h : b ≠ 255) : b.toNat < 255 := by
  have h1 : b.toNat < 256 := b.toNat_lt
  have h2 : b.toNat ≠ 255 := by
    intro e
    apply h
    apply UInt8.toNat_inj.mp
    simpa using e
  omega

theorem toNat_pos {b : Byte} (h : b ≠ 0) : b.toNat ≠ 0 := by
  intro e
  apply h
  apply UInt8.toNat_inj.mp
  simpa using e

theorem Trie.add_spec (p : Bytes) : ∀ (t : Trie), t.Wf → p ≠ [] → Ok p →
    ∃ t', t.add p = some t' ∧ t'.Wf ∧ ∀ s, t'.mem s = (t.mem s || decide (s = p)) := by
  induction p with
  | nil => intro t _ h; exact absurd rfl h
  | cons b p ih =>
    intro t hwf _ hok
    obtain ⟨r, l, hr, hl, hr0, hl0, hsub⟩ := hwf
    have hb := hok b (by simp)
    have hblt := toNat_lt_255 hb.2
    have hb0 := toNat_pos hb.1
    match p with
    | [] =>
      refine ⟨.node r (l.set b.toNat true), by simp [Trie.add, Trie.leafs, Trie.rests, hl, hblt], ?_, ?_⟩
      · refine .mk _ _ hr (by simpa using hl) hr0 ?_ hsub
        rw [List.getElem?_set]; simp [hb0, hl0]
      · intro s
        match s with
        | [] => simp [Trie.mem]
        | [c] =>
          simp only [Trie.mem, Trie.leafs, List.getElem?_set]
          by_cases e : b = c
          · subst e; simp [hl, hblt]
          · have : b.toNat ≠ c.toNat := fun h => e (UInt8.toNat_inj.mp h)
            simp [this, Ne.symm e]
        | c :: d :: s => simp [Trie.mem, Trie.rests]
    | c :: p =>
      have hblt' : b.toNat < r.length := by omega
      obtain ⟨o, ho⟩ : ∃ o, r[b.toNat]? = some o := ⟨_, List.getElem?_eq_getElem hblt'⟩
      have hw : (o.getD .empty).Wf := by
        cases o with
        | none => exact Trie.empty_wf
        | some sub => exact hsub _ _ ho
      obtain ⟨sub', h1, h2, h3⟩ := ih (o.getD .empty) hw (by simp) (fun x hx => hok x (by simp [hx]))
      refine ⟨.node (r.set b.toNat (some sub')) l, by simp [Trie.add, Trie.rests, Trie.leafs, ho, h1], ?_, ?_⟩
      · refine .mk _ _ (by simpa using hr) hl ?_ hl0 ?_
        · rw [List.getElem?_set]; simp [hb0, hr0]
        · intro i sub hi
          rw [List.getElem?_set] at hi
          split at hi
          · simp at hi
            have := hi
            simp_all
          · exact hsub _ _ hi
      · intro s
        match s with
        | [] => simp [Trie.mem]
        | [d] => simp [Trie.mem, Trie.leafs]
        | d :: e :: s =>
          simp only [Trie.mem, Trie.rests, List.getElem?_set]
          by_cases hd : b = d
          · subst hd
            simp only [if_true, hblt', h3, ho]
            cases o with
            | none => simp [Trie.empty_mem]
            | some sub => simp
          · have : b.toNat ≠ d.toNat := fun h => hd (UInt8.toNat_inj.mp h)
            simp [this, Ne.symm hd]

theorem Trie.find_spec (s : Bytes) : ∀ (t : Trie), t.Wf → Ok s →
    ∃ r, t.find s = some r ∧
      (r = none → ∀ p, p <+: s → t.mem p = false) ∧
      (∀ n, r = some n → ∃ p, p <+: s ∧ p.length = n ∧ t.mem p = true ∧
        ∀ q, q <+: s → t.mem q = true → q.length ≤ n) := by
  induction s with
  | nil =>
    intro t hwf _
    obtain ⟨r, l, hr, hl, hr0, hl0, hsub⟩ := hwf
    refine ⟨none, by simp [Trie.find, Trie.rests, Trie.leafs, hr0, hl0], ?_, by simp⟩
    intro _ p hp
    rw [List.prefix_nil] at hp
    subst hp; rfl
  | cons b s ih =>
    intro t hwf hok
    obtain ⟨r, l, hr, hl, hr0, hl0, hsub⟩ := hwf
    have hb := hok b (by simp)
    have hblt := toNat_lt_255 hb.2
    obtain ⟨o, ho⟩ : ∃ o, r[b.toNat]? = some o := ⟨_, List.getElem?_eq_getElem (by omega)⟩
    obtain ⟨leaf, hleaf⟩ : ∃ o, l[b.toNat]? = some o := ⟨_, List.getElem?_eq_getElem (by omega)⟩
    have mem1 : (Trie.node r l).mem [b] = leaf := by
      simp [Trie.mem, Trie.leafs, hleaf]
    have pre : ∀ p, p <+: b :: s → (p = [] ∨ p = [b] ∨ ∃ c q, p = b :: c :: q ∧ (c :: q) <+: s) := by
      intro p hp
      match p with
      | [] => simp
      | [c] => rw [List.cons_prefix_cons] at hp; simp [hp.1]
      | c :: d :: q =>
        rw [List.cons_prefix_cons] at hp
        exact Or.inr (Or.inr ⟨d, q, by simp [hp.1], hp.2⟩)
    simp only [Trie.find, Trie.rests, Trie.leafs, ho, hleaf]
    cases o with
    | none =>
      refine ⟨if leaf then some 1 else none, rfl, ?_, ?_⟩
      · intro hn p hp
        have hlf : leaf = false := by cases leaf <;> simp at hn ⊢
        rcases pre p hp with rfl | rfl | ⟨c, q, rfl, _⟩
        · rfl
        · rw [mem1]; exact hlf
        · simp [Trie.mem, Trie.rests, ho]
      · intro n hn
        have hlf : leaf = true ∧ n = 1 := by cases leaf <;> simp at hn ⊢; omega
        obtain ⟨hlf, rfl⟩ := hlf
        refine ⟨[b], by simp [List.cons_prefix_cons], rfl, by rw [mem1]; exact hlf, ?_⟩
        intro q hq hm
        rcases pre q hq with rfl | rfl | ⟨c, q, rfl, _⟩
        · simp
        · simp
        · simp [Trie.mem, Trie.rests, ho] at hm
    | some sub =>
      obtain ⟨r', h1, h2, h3⟩ := ih sub (hsub _ _ ho) (fun x hx => hok x (by simp [hx]))
      have mem2 : ∀ c q, (Trie.node r l).mem (b :: c :: q) = sub.mem (c :: q) := by
        intro c q; simp [Trie.mem, Trie.rests, ho]
      simp only [h1]
      cases r' with
      | none =>
        have h2 := h2 rfl
        refine ⟨if leaf then some 1 else none, rfl, ?_, ?_⟩
        · intro hn p hp
          have hlf : leaf = false := by cases leaf <;> simp at hn ⊢
          rcases pre p hp with rfl | rfl | ⟨c, q, rfl, hq⟩
          · rfl
          · rw [mem1]; exact hlf
          · rw [mem2]; exact h2 _ hq
        · intro n hn
          have hlf : leaf = true ∧ n = 1 := by cases leaf <;> simp at hn ⊢; omega
          obtain ⟨hlf, rfl⟩ := hlf
          refine ⟨[b], by simp [List.cons_prefix_cons], rfl, by rw [mem1]; exact hlf, ?_⟩
          intro q hq hm
          rcases pre q hq with rfl | rfl | ⟨c, q', rfl, hq'⟩
          · simp
          · simp
          · rw [mem2, h2 _ hq'] at hm; simp at hm
      | some m =>
        obtain ⟨p, hp, hlen, hm, hmax⟩ := h3 m rfl
        refine ⟨some (m + 1), rfl, by simp, ?_⟩
        intro n hn
        simp at hn
        subst hn
        have hpne : p ≠ [] := by rintro rfl; simp [Trie.mem] at hm
        obtain ⟨c, q, rfl⟩ := List.exists_cons_of_ne_nil hpne
        refine ⟨b :: c :: q, by rw [List.cons_prefix_cons]; exact ⟨rfl, hp⟩, by simp at hlen ⊢; omega,
          by rw [mem2]; exact hm, ?_⟩
        intro q' hq' hm'
        rcases pre q' hq' with rfl | rfl | ⟨c', q'', rfl, hq''⟩
        · simp
        · simp
        · rw [mem2] at hm'
          have := hmax _ hq'' hm'
          simp at this ⊢; omega

end Hfst.Tok
