import Verif.Lemmas.Trie

/-!
# C06–C10: tokenization
-/
namespace Hfst.Tok

/-! ## Specification -/

/-- `p` is the longest of the symbols `syms` that `s` starts with. -/
def IsLongest (syms : List Bytes) (s p : Bytes) : Prop :=
  p ∈ syms ∧ p <+: s ∧ ∀ q ∈ syms, q <+: s → q.length ≤ p.length

/-- `s` is cut into `pieces`: at each point the longest registered symbol if there is one, otherwise one
character, whose size `charSize` gives. -/
inductive Cut (syms : List Bytes) (charSize : Bytes → Nat) : Bytes → List Bytes → Prop
  | nil : Cut syms charSize [] []
  | sym {p r pieces} : p ≠ [] → IsLongest syms (p ++ r) p → Cut syms charSize r pieces →
      Cut syms charSize (p ++ r) (p :: pieces)
  | char {p r pieces} : p ≠ [] → (∀ q ∈ syms, ¬ q <+: p ++ r) → p.length = charSize (p ++ r) →
      Cut syms charSize r pieces → Cut syms charSize (p ++ r) (p :: pieces)

/-- Cutting loses nothing: the pieces put together are the input, and none is empty. -/
theorem Cut.lossless {syms charSize s pieces} (h : Cut syms charSize s pieces) :
    pieces.flatten = s ∧ ∀ p ∈ pieces, p ≠ [] := by
  induction h with
  | nil => simp
  | sym hp _ _ ih => obtain ⟨h1, h2⟩ := ih; simp [h1]; exact ⟨hp, h2⟩
  | char hp _ _ _ ih => obtain ⟨h1, h2⟩ := ih; simp [h1]; exact ⟨hp, h2⟩

/-- Cutting is a function of the input. -/
theorem Cut.unique {syms charSize s p₁ p₂} (h₁ : Cut syms charSize s p₁) (h₂ : Cut syms charSize s p₂) :
    p₁ = p₂ := by
  induction h₁ generalizing p₂ with
  | nil =>
    generalize hs : ([] : Bytes) = s at h₂
    cases h₂ with
    | nil => rfl
    | sym hp _ _ => simp at hs; exact absurd hs.1 hp
    | char hp _ _ _ => simp at hs; exact absurd hs.1 hp
  | @sym p r pieces hp hl hc ih =>
    generalize hs : p ++ r = s at h₂ hl
    cases h₂ with
    | nil => simp at hs; exact absurd hs.1 hp
    | @sym p' r' pieces' hp' hl' hc' =>
      have hlen : p.length = p'.length :=
        Nat.le_antisymm (hl'.2.2 _ hl.1 hl.2.1) (hl.2.2 _ hl'.1 hl'.2.1)
      obtain ⟨rfl, rfl⟩ := List.append_inj hs hlen
      rw [ih hc']
    | char hp' hn _ _ => exact absurd hl.2.1 (hn _ hl.1)
  | @char p r pieces hp hn hlen hc ih =>
    generalize hs : p ++ r = s at h₂ hn hlen
    cases h₂ with
    | nil => simp at hs; exact absurd hs.1 hp
    | sym hp' hl' _ => exact absurd hl'.2.1 (hn _ hl'.1)
    | @char p' r' pieces' hp' hn' hlen' hc' =>
      obtain ⟨rfl, rfl⟩ := List.append_inj hs (by omega)
      rw [ih hc']

/-! ## Registration -/

/-- The symbols a list of registrations puts into the trie, and those to be skipped. -/
def regSyms (rs : List Reg) : List Bytes := (rs.map (·.sym)).filter (· ≠ [])
def regSkips (rs : List Reg) : List Bytes := ((rs.filter (·.skip)).map (·.sym)).filter (· ≠ [])

theorem cStr_ok {s : Bytes} (h : Ok s) : cStr s = s := by
  unfold cStr
  induction s with
  | nil => rfl
  | cons b s ih =>
    have hb := (h b (by simp)).1
    simp [hb]
    simpa using ih (fun x hx => h x (by simp [hx]))

theorem register_spec (rs : List Reg) : ∀ (t : Tokenizer), t.trie.Wf → (∀ r ∈ rs, Ok r.sym) →
    ∃ t', t.register rs = some t' ∧ t'.trie.Wf ∧
      (∀ s, t'.trie.mem s = (t.trie.mem s || decide (s ∈ regSyms rs))) ∧
      (∀ s, s ∈ t'.skip ↔ s ∈ t.skip ∨ s ∈ regSkips rs) := by
  induction rs with
  | nil => intro t hw _; exact ⟨t, rfl, hw, by simp [regSyms], by simp [regSkips]⟩
  | cons r rs ih =>
    intro t hw hok
    have hok' : ∀ r ∈ rs, Ok r.sym := fun x hx => hok x (by simp [hx])
    by_cases he : r.sym = []
    · have hstep : (if r.skip then t.addSkip r.sym else t.addMultichar r.sym) = some t := by
        cases r.skip <;> simp [Tokenizer.addSkip, Tokenizer.addMultichar, he]
      obtain ⟨t', h1, h2, h3, h4⟩ := ih t hw hok'
      refine ⟨t', by simp only [Tokenizer.register, hstep, Option.bind_some, h1], h2, ?_, ?_⟩
      · intro s; rw [h3]; simp [regSyms, he]
      · intro s; rw [h4]
        cases hsk : r.skip <;> simp [regSkips, hsk, he]
    · have hokr := hok r (by simp)
      obtain ⟨tr, a1, a2, a3⟩ := Trie.add_spec r.sym t.trie hw he hokr
      let t1 : Tokenizer := { trie := tr, skip := if r.skip then r.sym :: t.skip else t.skip }
      have hstep : (if r.skip then t.addSkip r.sym else t.addMultichar r.sym) = some t1 := by
        cases hsk : r.skip <;>
          simp [Tokenizer.addSkip, Tokenizer.addMultichar, he, cStr_ok hokr, a1, t1, hsk]
      obtain ⟨t', h1, h2, h3, h4⟩ := ih t1 a2 hok'
      refine ⟨t', by simp only [Tokenizer.register, hstep, Option.bind_some, h1], h2, ?_, ?_⟩
      · intro s; rw [h3, a3]; simp [regSyms, he, Bool.or_assoc]
      · intro s; rw [h4]
        cases hsk : r.skip <;> simp [regSkips, hsk, he, t1, or_assoc, or_left_comm]

/-- C07 for a single position, after any registrations: the symbol found is the longest registered one. -/
theorem C07_longest (rs : List Reg) (hrs : ∀ r ∈ rs, Ok r.sym) (s : Bytes) (hs : Ok s) :
    ∃ t r, Tokenizer.empty.register rs = some t ∧ t.trie.find s = some r ∧
      (r = none → ∀ q ∈ regSyms rs, ¬ q <+: s) ∧
      (∀ n, r = some n → n ≤ s.length ∧ IsLongest (regSyms rs) s (s.take n)) := by
  obtain ⟨t, h1, h2, h3, _⟩ := register_spec rs Tokenizer.empty Trie.empty_wf hrs
  obtain ⟨r, f1, f2, f3⟩ := Trie.find_spec s t.trie h2 hs
  have hm : ∀ q, t.trie.mem q = true ↔ q ∈ regSyms rs := by
    intro q; rw [h3]; simp [Tokenizer.empty, Trie.empty_mem]
  refine ⟨t, r, h1, f1, ?_, ?_⟩
  · intro hr q hq hp
    have := f2 hr q hp
    rw [(hm q).mpr hq] at this
    simp at this
  · intro n hn
    obtain ⟨p, p1, p2, p3, p4⟩ := f3 n hn
    have hpt : s.take n = p := by
      rw [← p2]; exact (List.prefix_iff_eq_take.mp p1).symm
    refine ⟨by rw [← p2]; exact p1.length_le, ?_⟩
    rw [hpt]
    exact ⟨(hm p).mp p3, p1, fun q hq hp => by rw [p2]; exact p4 q hp ((hm q).mpr hq)⟩

/-- The character size in use: by ICU, or by bit tests on the first byte. -/
def charSize (grapheme : Bytes → Nat) (split : Bool) (s : Bytes) : Nat :=
  if split then (match s with | [] => 0 | b :: _ => utf8Size b) else grapheme s

theorem loop_spec (t : Tokenizer) (syms : List Bytes) (hw : t.trie.Wf)
    (hm : ∀ q, t.trie.mem q = true ↔ q ∈ syms) (grapheme : Bytes → Nat) (split : Bool)
    (G : Bytes → Prop)
    (g1 : ∀ r, G r → r ≠ [] → (∀ q ∈ syms, ¬ q <+: r) → 0 < charSize grapheme split r ∧
      charSize grapheme split r ≤ r.length ∧ G (r.drop (charSize grapheme split r)))
    (g2 : ∀ r p, G r → p ∈ syms → p <+: r → G (r.drop p.length)) :
    ∀ (n : Nat) (s : Bytes), s.length = n → Ok s → G s →
      ∃ pieces, Cut syms (charSize grapheme split) s pieces ∧
        t.loop grapheme split s = .tokens (pieces.filter (fun p => !t.skip.contains p)) := by
  intro n
  induction n using Nat.strongRecOn with
  | ind n ih =>
    intro s hlen hok hg
    by_cases hs : s = []
    · subst hs
      exact ⟨[], .nil, by rw [Tokenizer.loop]; simp⟩
    · obtain ⟨b, s', rfl⟩ := List.exists_cons_of_ne_nil hs
      obtain ⟨r, f1, f2, f3⟩ := Trie.find_spec (b :: s') t.trie hw hok
      -- the size of the next symbol, and the piece it gives
      have key : ∃ k, t.nextSize grapheme split (b :: s') = some (k + 1) ∧ k + 1 ≤ (b :: s').length ∧
          G ((b :: s').drop (k + 1)) ∧
          ∀ pieces, Cut syms (charSize grapheme split) ((b :: s').drop (k + 1)) pieces →
            Cut syms (charSize grapheme split) (b :: s') ((b :: s').take (k + 1) :: pieces) := by
        cases r with
        | some m =>
          obtain ⟨p, p1, p2, p3, p4⟩ := f3 m rfl
          have hp0 : p ≠ [] := by rintro rfl; simp [Trie.mem] at p3
          have hm0 : m ≠ 0 := by rintro rfl; simp at p2; exact hp0 p2
          obtain ⟨k, rfl⟩ : ∃ k, m = k + 1 := ⟨m - 1, by omega⟩
          refine ⟨k, by simp [Tokenizer.nextSize, f1], by rw [← p2]; exact p1.length_le,
            by rw [← p2]; exact g2 _ p hg ((hm p).mp p3) p1, ?_⟩
          intro pieces hc
          have hpt : (b :: s').take (k + 1) = p := by
            rw [← p2]; exact (List.prefix_iff_eq_take.mp p1).symm
          have := Cut.sym (syms := syms) (p := (b :: s').take (k + 1)) (by rw [hpt]; exact hp0)
            (by
              rw [List.take_append_drop, hpt]
              exact ⟨(hm p).mp p3, p1, fun q hq hp => by rw [p2]; exact p4 q hp ((hm q).mpr hq)⟩) hc
          rwa [List.take_append_drop] at this
        | none =>
          have hno : ∀ q ∈ syms, ¬ q <+: b :: s' := by
            intro q hq hp
            have := f2 rfl q hp
            rw [(hm q).mpr hq] at this
            simp at this
          obtain ⟨c1, c2, c3⟩ := g1 _ hg hs hno
          obtain ⟨k, hk⟩ : ∃ k, charSize grapheme split (b :: s') = k + 1 :=
            ⟨charSize grapheme split (b :: s') - 1, by omega⟩
          rw [hk] at c3
          refine ⟨k, ?_, by omega, c3, ?_⟩
          · simp only [Tokenizer.nextSize, f1]
            simp only [charSize] at hk
            rw [← hk]
          · intro pieces hc
            have := Cut.char (syms := syms) (p := (b :: s').take (k + 1)) (by simp)
              (by rw [List.take_append_drop]; exact hno)
              (by rw [List.take_append_drop, hk, List.length_take]; omega) hc
            rwa [List.take_append_drop] at this
      obtain ⟨k, k1, k2, kg, k3⟩ := key
      obtain ⟨pieces, c1, c2⟩ := ih ((b :: s').drop (k + 1)).length (by
          rw [List.length_drop, ← hlen]; simp; omega) ((b :: s').drop (k + 1)) rfl
        (fun x hx => hok x (List.mem_of_mem_drop hx)) kg
      refine ⟨_, k3 pieces c1, ?_⟩
      rw [Tokenizer.loop]
      simp only [hs, k1, c2, dite_false]
      have : ¬ (b :: s').length < k + 1 := by omega
      simp only [this, if_false]
      have hsk : t.isSkip ((b :: s').take (k + 1)) = t.skip.contains ((b :: s').take (k + 1)) := by
        simp [Tokenizer.isSkip]
      rw [hsk, List.filter_cons]
      cases t.skip.contains ((b :: s').take (k + 1)) <;> simp

theorem tokenize_general (rs : List Reg) (hrs : ∀ r ∈ rs, Ok r.sym) (grapheme : Bytes → Nat)
    (split : Bool) (s : Bytes) (hs : Ok s) (G : Bytes → Prop) (hG : G s)
    (g1 : ∀ r, G r → r ≠ [] → (∀ q ∈ regSyms rs, ¬ q <+: r) → 0 < charSize grapheme split r ∧
      charSize grapheme split r ≤ r.length ∧ G (r.drop (charSize grapheme split r)))
    (g2 : ∀ r p, G r → p ∈ regSyms rs → p <+: r → G (r.drop p.length)) :
    ∃ t pieces, Tokenizer.empty.register rs = some t ∧
      pieces.flatten = s ∧ (∀ p ∈ pieces, p ≠ []) ∧
      Cut (regSyms rs) (charSize grapheme split) s pieces ∧
      t.tokenize grapheme split s = .tokens (pieces.filter (fun p => !(regSkips rs).contains p)) := by
  obtain ⟨t, h1, h2, h3, h4⟩ := register_spec rs Tokenizer.empty Trie.empty_wf hrs
  have hm : ∀ q, t.trie.mem q = true ↔ q ∈ regSyms rs := by
    intro q; rw [h3]; simp [Tokenizer.empty, Trie.empty_mem]
  obtain ⟨pieces, c1, c2⟩ := loop_spec t (regSyms rs) h2 hm grapheme split G g1 g2 s.length s rfl hs hG
  refine ⟨t, pieces, h1, c1.lossless.1, c1.lossless.2, c1, ?_⟩
  rw [Tokenizer.tokenize, cStr_ok hs, c2]
  congr 1
  apply List.filter_congr
  intro p _
  have := h4 p
  simp only [Tokenizer.empty, List.not_mem_nil, false_or] at this
  rw [Bool.eq_iff_iff]
  simp [this]

/-- C06 and C07 when ICU finds the characters: tokenization ends, stays inside the string, and its tokens are
the pieces of the input, cut at each point at the longest registered symbol (or after one character), minus
the skip symbols.  `Ok`: no NUL and no byte 255 (a well-formed UTF-8 text has no byte 255).  Of ICU it is
assumed that the first character of a non-empty text is not empty and not longer than the text. -/
theorem C06_tokenize_graphemes (rs : List Reg) (hrs : ∀ r ∈ rs, Ok r.sym) (grapheme : Bytes → Nat)
    (s : Bytes) (hs : Ok s)
    (hicu : ∀ r, r <:+ s → r ≠ [] → 0 < grapheme r ∧ grapheme r ≤ r.length) :
    ∃ t pieces, Tokenizer.empty.register rs = some t ∧
      pieces.flatten = s ∧ (∀ p ∈ pieces, p ≠ []) ∧
      Cut (regSyms rs) grapheme s pieces ∧
      t.tokenize grapheme false s = .tokens (pieces.filter (fun p => !(regSkips rs).contains p)) := by
  have h := tokenize_general rs hrs grapheme false s hs (fun r => r <:+ s) (List.suffix_refl _)
    (fun r hr hne _ => by
      obtain ⟨a, b⟩ := hicu r hr hne
      exact ⟨a, b, (List.drop_suffix _ _).trans hr⟩)
    (fun r p hr _ _ => (List.drop_suffix _ _).trans hr)
  exact h

/-! ## UTF-8 (C51 and the `split_characters` mode of C06) -/

/-- UTF-8 encoding of a text (Lean's own definition of the encoding of a character). -/
def utf8 (text : List Char) : Bytes := text.flatMap String.utf8EncodeChar

theorem utf8Size_table : ∀ n : Fin 256, utf8Size (UInt8.ofNat n.val) =
    if n.val < 128 then 1 else if n.val / 32 % 2 = 0 then 2 else if n.val / 16 % 2 = 0 then 3 else 4 := by
  decide +kernel

theorem utf8Size_ofNat {n : Nat} (h : n < 256) : utf8Size (UInt8.ofNat n) =
    if n < 128 then 1 else if n / 32 % 2 = 0 then 2 else if n / 16 % 2 = 0 then 3 else 4 :=
  utf8Size_table ⟨n, h⟩

/-- The encoding of a character starts with a byte that tells its length, and has no byte 255, and no byte 0
unless the character is NUL. -/
theorem utf8EncodeChar_head (c : Char) :
    ∃ b bs, String.utf8EncodeChar c = b :: bs ∧ utf8Size b = (String.utf8EncodeChar c).length := by
  have hv : c.val.toNat < 0x110000 := by
    rcases c.valid with h | h
    · exact Nat.lt_trans h (by decide)
    · exact h.2
  fun_cases String.utf8EncodeChar c
  · rename_i v h
    refine ⟨_, _, rfl, ?_⟩
    rw [utf8Size_ofNat (by simp only [v] at h ⊢; omega), if_pos (by simp only [v] at h ⊢; omega)]; rfl
  · rename_i v h1 h2
    refine ⟨_, _, rfl, ?_⟩
    rw [utf8Size_ofNat (by omega), if_neg (by omega), if_pos (by omega)]; rfl
  · rename_i v h1 h2 h3
    refine ⟨_, _, rfl, ?_⟩
    rw [utf8Size_ofNat (by omega), if_neg (by omega), if_neg (by omega), if_pos (by omega)]; rfl
  · rename_i v h1 h2 h3
    refine ⟨_, _, rfl, ?_⟩
    have hv' : v / 262144 < 8 := by simp only [v]; omega
    rw [utf8Size_ofNat (by omega), if_neg (by omega), if_neg (by omega), if_neg (by omega)]; rfl

theorem utf8EncodeChar_ok (c : Char) (hc : c ≠ Char.ofNat 0) : Ok (String.utf8EncodeChar c) := by
  have hv : c.val.toNat < 0x110000 := by
    rcases c.valid with h | h
    · exact Nat.lt_trans h (by decide)
    · exact h.2
  have hv0 : c.val.toNat ≠ 0 := by
    intro h
    apply hc
    apply Char.ext
    apply UInt32.toNat_inj.mp
    rw [h]; rfl
  have key : ∀ n, 0 < n → n < 255 → UInt8.ofNat n ≠ 0 ∧ UInt8.ofNat n ≠ 255 := by
    intro n h1 h2
    constructor
    · intro h
      have := congrArg UInt8.toNat h
      simp at this; omega
    · intro h
      have := congrArg UInt8.toNat h
      simp at this; omega
  unfold Ok
  fun_cases String.utf8EncodeChar c
  · rename_i v h
    intro b hb
    simp only [List.mem_singleton] at hb
    subst hb
    exact key _ (by simp only [v]; omega) (by omega)
  · rename_i v h1 h2
    intro b hb
    simp only [List.mem_cons, List.not_mem_nil, or_false] at hb
    rcases hb with rfl | rfl <;> exact key _ (by omega) (by omega)
  · rename_i v h1 h2 h3
    intro b hb
    simp only [List.mem_cons, List.not_mem_nil, or_false] at hb
    rcases hb with rfl | rfl | rfl <;> exact key _ (by omega) (by omega)
  · rename_i v h1 h2 h3
    intro b hb
    simp only [List.mem_cons, List.not_mem_nil, or_false] at hb
    rcases hb with rfl | rfl | rfl | rfl <;> exact key _ (by omega) (by omega)

theorem utf8_ok (text : List Char) (h : Char.ofNat 0 ∉ text) : Ok (utf8 text) := by
  intro b hb
  simp only [utf8, List.mem_flatMap] at hb
  obtain ⟨c, hc, hb⟩ := hb
  exact utf8EncodeChar_ok c (by rintro rfl; exact h hc) b hb

/-- A UTF-8 text that starts with a UTF-8 text continues with a UTF-8 text. -/
theorem utf8_prefix (x y : List Char) (h : utf8 x <+: utf8 y) :
    ∃ y' , y' <:+ y ∧ (utf8 y).drop (utf8 x).length = utf8 y' := by
  induction x generalizing y with
  | nil => exact ⟨y, List.suffix_refl _, by simp [utf8]⟩
  | cons c x ih =>
    obtain ⟨b, bs, hb, hsz⟩ := utf8EncodeChar_head c
    cases y with
    | nil =>
      simp [utf8, hb] at h
    | cons d y =>
      obtain ⟨b', bs', hb', hsz'⟩ := utf8EncodeChar_head d
      have e1 : utf8 (c :: x) = String.utf8EncodeChar c ++ utf8 x := by simp [utf8]
      have e2 : utf8 (d :: y) = String.utf8EncodeChar d ++ utf8 y := by simp [utf8]
      rw [e1, e2] at h
      have hbb : b = b' := by
        rw [hb, hb'] at h
        simp only [List.cons_append, List.cons_prefix_cons] at h
        exact h.1
      have hlen : (String.utf8EncodeChar c).length = (String.utf8EncodeChar d).length := by
        rw [← hsz, ← hsz', hbb]
      obtain ⟨z, hz⟩ := h
      rw [List.append_assoc] at hz
      obtain ⟨h1, h2⟩ := List.append_inj hz hlen
      obtain ⟨y', s1, s2⟩ := ih y ⟨z, h2⟩
      refine ⟨y', s1.trans (List.suffix_cons _ _), ?_⟩
      rw [e1, e2, List.length_append, hlen, ← s2, List.drop_append]
      simp

/-- C06 and C07 in the mode that splits into UTF-8 characters: for a UTF-8 text and registered symbols that are
UTF-8 texts (no NUL in either) tokenization ends, stays inside the string, and its tokens are the pieces of the
input, cut at each point at the longest registered symbol or after one character, minus the skip symbols. -/
theorem C06_tokenize_split (rs : List Reg) (grapheme : Bytes → Nat)
    (hrs : ∀ r ∈ rs, ∃ x, r.sym = utf8 x ∧ Char.ofNat 0 ∉ x)
    (text : List Char) (ht : Char.ofNat 0 ∉ text) :
    ∃ t pieces, Tokenizer.empty.register rs = some t ∧
      pieces.flatten = utf8 text ∧ (∀ p ∈ pieces, p ≠ []) ∧
      Cut (regSyms rs) (fun s => match s with | [] => 0 | b :: _ => utf8Size b) (utf8 text) pieces ∧
      t.tokenize grapheme true (utf8 text) =
        .tokens (pieces.filter (fun p => !(regSkips rs).contains p)) := by
  have h := tokenize_general rs
    (by
      intro r hr
      obtain ⟨x, hx, h0⟩ := hrs r hr
      rw [hx]; exact utf8_ok x h0)
    grapheme true (utf8 text) (utf8_ok text ht) (fun r => ∃ y, r = utf8 y) ⟨text, rfl⟩
    (by
      rintro r ⟨y, rfl⟩ hne _
      cases y with
      | nil => simp [utf8] at hne
      | cons c y =>
        obtain ⟨b, bs, hb, hsz⟩ := utf8EncodeChar_head c
        have e : utf8 (c :: y) = String.utf8EncodeChar c ++ utf8 y := by simp [utf8]
        have hcs : charSize grapheme true (utf8 (c :: y)) = (String.utf8EncodeChar c).length := by
          rw [e, ← hsz, hb]; rfl
        rw [hcs, e]
        refine ⟨by rw [hb]; simp, by simp, y, by simp⟩)
    (by
      rintro r p ⟨y, rfl⟩ hp hpre
      simp only [regSyms, List.mem_filter, List.mem_map] at hp
      obtain ⟨⟨reg, hreg, rfl⟩, _⟩ := hp
      obtain ⟨x, hx, _⟩ := hrs reg hreg
      rw [hx] at hpre ⊢
      obtain ⟨y', _, h2⟩ := utf8_prefix x y hpre
      exact ⟨y', h2⟩)
  exact h

/-- Registered symbols of the examples: "<b>" and the skip symbol "é". -/
def exampleRegs : List Reg := [⟨false, utf8 ['<', 'b', '>']⟩, ⟨false, utf8 ['<']⟩, ⟨true, utf8 ['é']⟩]

example : ∀ r ∈ exampleRegs, ∃ x, r.sym = utf8 x ∧ Char.ofNat 0 ∉ x := by
  intro r hr
  simp only [exampleRegs, List.mem_cons, List.not_mem_nil, or_false] at hr
  rcases hr with rfl | rfl | rfl
  · exact ⟨_, rfl, by decide⟩
  · exact ⟨_, rfl, by decide⟩
  · exact ⟨_, rfl, by decide⟩

/-- C06 violated for an input with an embedded NUL byte, which `std::string` allows: "a\0b" loses its end. -/
theorem C06_nul_violated (grapheme : Bytes → Nat) :
    Tokenizer.empty.tokenize grapheme true [97, 0, 98] = Tokenizer.empty.tokenize grapheme true [97] := by
  rfl

/-- C06 violated for a registered symbol containing the byte 255: undefined behaviour (index 255 in vectors of
255 entries). -/
theorem C06_byte255_violated : Tokenizer.empty.register [⟨false, [255]⟩] = none := by
  have h : (Tokenizer.empty.register [⟨false, [255]⟩]).isNone = true := by decide +kernel
  simpa using h

/-! ## C08 -/

theorem pairUp_cons {τ : Type} (eps i o : τ) (ins outs : List τ) :
    pairUp eps (i :: ins) (o :: outs) = (i, o) :: pairUp eps ins outs := by
  by_cases h : ins.length < outs.length <;> simp [pairUp, h]

/-- C08: padding keeps both sides.  The left components are the input tokens followed by epsilons only, the
right ones are the output tokens followed by epsilons only, and there are as many pairs as the longer side has
tokens (so no pair is padding on both sides). -/
theorem C08_pairUp {τ : Type} (eps : τ) (ins outs : List τ) :
    (pairUp eps ins outs).map (·.1) = ins ++ List.replicate (outs.length - ins.length) eps ∧
    (pairUp eps ins outs).map (·.2) = outs ++ List.replicate (ins.length - outs.length) eps ∧
    (pairUp eps ins outs).length = max ins.length outs.length := by
  induction ins generalizing outs with
  | nil =>
    cases outs with
    | nil => simp [pairUp]
    | cons o outs => simp [pairUp, List.map_const', Function.comp_def, List.replicate_succ]
  | cons i ins ih =>
    cases outs with
    | nil => simp [pairUp, List.map_const', Function.comp_def, List.replicate_succ]
    | cons o outs =>
      obtain ⟨h1, h2, h3⟩ := ih outs
      rw [pairUp_cons]
      simp [h1, h2, h3]

/-- C08: dropping the epsilons from a side gives back its tokens, as long as epsilon itself is not among
them. -/
theorem C08_unpad {τ : Type} [DecidableEq τ] (eps : τ) (ins outs : List τ) (hi : eps ∉ ins) (ho : eps ∉ outs) :
    ((pairUp eps ins outs).map (·.1)).filter (· ≠ eps) = ins ∧
    ((pairUp eps ins outs).map (·.2)).filter (· ≠ eps) = outs ∧
    ∀ p ∈ pairUp eps ins outs, p ≠ (eps, eps) := by
  obtain ⟨h1, h2, h3⟩ := C08_pairUp eps ins outs
  have keep : ∀ l : List τ, eps ∉ l → l.filter (· ≠ eps) = l := by
    intro l hl
    rw [List.filter_eq_self]
    intro a ha
    simp only [ne_eq, decide_not, Bool.not_eq_true', decide_eq_false_iff_not]
    rintro rfl; exact hl ha
  refine ⟨?_, ?_, ?_⟩
  · rw [h1, List.filter_append, keep ins hi]; simp
  · rw [h2, List.filter_append, keep outs ho]; simp
  · clear h1 h2 h3
    induction ins generalizing outs with
    | nil =>
      cases outs with
      | nil => simp [pairUp]
      | cons o outs =>
        intro p hp
        simp [pairUp] at hp
        rintro rfl
        simp at hp ho
        rcases hp with rfl | hp
        · exact ho.1 rfl
        · exact ho.2 hp
    | cons i ins ih =>
      cases outs with
      | nil =>
        intro p hp
        simp [pairUp] at hp
        rintro rfl
        simp at hp hi
        rcases hp with rfl | hp
        · exact hi.1 rfl
        · exact hi.2 hp
      | cons o outs =>
        rw [pairUp_cons]
        intro p hp
        rcases List.mem_cons.mp hp with rfl | hp
        · intro h
          simp at h hi
          exact hi.1 h.1.symm
        · exact ih outs (fun h => hi (by simp [h])) (fun h => ho (by simp [h])) p hp

example : pairUp "0" ["a", "b", "c"] ["x"] = [("a", "x"), ("b", "0"), ("c", "0")] := by decide

/-! ## C09 -/

/-- C09, literally: the symbols of both sides all appear in order on their own side, and every flag of
either side appears on both sides.  What this does not say is that nothing else appears: that is false
(`C09_violated`) unless the sides agree wherever one of them has a flag (`C09_aligned_partial`). -/
theorem C09_kept {τ : Type} [DecidableEq τ] (isFlag : τ → Bool) (eps : τ) (ins outs : List τ) :
    ins.Sublist ((alignLoop isFlag eps ins outs).map (·.1)) ∧
    outs.Sublist ((alignLoop isFlag eps ins outs).map (·.2)) ∧
    ∀ f, isFlag f = true → f ∈ ins ∨ f ∈ outs → (f, f) ∈ alignLoop isFlag eps ins outs := by
  fun_induction alignLoop isFlag eps ins outs with
  | case1 => simp
  | case2 o outs ih =>
    obtain ⟨h1, h2, h3⟩ := ih
    refine ⟨by simp, ?_, ?_⟩
    · split <;> simp [h2]
    · intro f hf hm
      simp only [List.not_mem_nil, false_or, List.mem_cons] at hm ⊢
      rcases hm with rfl | hm
      · simp [hf]
      · exact Or.inr (h3 f hf (Or.inr hm))
  | case3 i ins ih =>
    obtain ⟨h1, h2, h3⟩ := ih
    refine ⟨?_, by simp, ?_⟩
    · split <;> simp [h1]
    · intro f hf hm
      simp only [List.not_mem_nil, or_false, List.mem_cons] at hm ⊢
      rcases hm with rfl | hm
      · simp [hf]
      · exact Or.inr (h3 f hf (Or.inl hm))
  | case4 i ins o outs hc ih =>
    obtain ⟨h1, h2, h3⟩ := ih
    refine ⟨by simp [h1], by simp [h2], ?_⟩
    intro f hf hm
    simp only [List.mem_cons] at hm ⊢
    rcases hm with (rfl | hm) | (rfl | hm)
    · left
      simp [hf] at hc
      rw [hc]
    · exact Or.inr (h3 f hf (Or.inl hm))
    · left
      simp [hf] at hc
      rw [hc]
    · exact Or.inr (h3 f hf (Or.inr hm))
  | case5 i ins o outs hc ih =>
    obtain ⟨h1, h2, h3⟩ := ih
    refine ⟨?_, ?_, ?_⟩
    · simp only [List.map_cons]
      exact (h1.cons o).cons_cons i
    · simp only [List.map_cons]
      exact (h2.cons_cons o).cons i
    · intro f hf hm
      simp only [List.mem_cons] at hm ⊢
      rcases hm with (rfl | hm) | (rfl | hm)
      · simp
      · exact Or.inr (Or.inr (h3 f hf (Or.inl hm)))
      · simp
      · exact Or.inr (Or.inr (h3 f hf (Or.inr hm)))

/-- C09 violated: aligning input "a @P.F.x@" with output "@P.F.x@ b" gives an input side with the non-flag
symbols "a b" and an output side with "a b" as well. -/
theorem C09_violated :
    alignFlags (fun s : List Char => Flags.isDiacritic s) "@_EPSILON_SYMBOL_@".toList
      ["a".toList, "@P.F.x@".toList] ["@P.F.x@".toList, "b".toList] =
    some [("a".toList, "a".toList), ("@P.F.x@".toList, "@P.F.x@".toList),
      ("@P.F.x@".toList, "@P.F.x@".toList), ("b".toList, "b".toList)] := by
  have h1 : Flags.isDiacritic "@P.F.x@".toList = true := by decide
  have h2 : Flags.isDiacritic "a".toList = false := by decide
  have h3 : Flags.isDiacritic "b".toList = false := by decide
  have h4 : "a".toList ≠ "@P.F.x@".toList := by decide
  have h5 : "@P.F.x@".toList ≠ "b".toList := by decide
  simp only [alignFlags, alignLoop, h1, h2, h3, h4, h5]
  simp

/-- Where one side has a flag the other side has the same flag or nothing at all. -/
def FlagsAgree {τ : Type} (isFlag : τ → Bool) (ins outs : List τ) : Prop :=
  ∀ p ∈ ins.zip outs, (isFlag p.1 = true ∨ isFlag p.2 = true) → p.1 = p.2

/-- C09, the part that holds in full: if flags never meet anything but themselves, each side without flags and
epsilons is exactly what was given, and both sides have the same flags. -/
theorem C09_aligned_partial {τ : Type} [DecidableEq τ] (isFlag : τ → Bool) (eps : τ) (he : isFlag eps = false)
    (ins outs : List τ) (h : FlagsAgree isFlag ins outs) (hi : eps ∉ ins) (ho : eps ∉ outs) :
    ((alignLoop isFlag eps ins outs).map (·.1)).filter (fun x => !isFlag x && x ≠ eps) =
      ins.filter (fun x => !isFlag x) ∧
    ((alignLoop isFlag eps ins outs).map (·.2)).filter (fun x => !isFlag x && x ≠ eps) =
      outs.filter (fun x => !isFlag x) ∧
    ((alignLoop isFlag eps ins outs).map (·.1)).filter isFlag =
      ((alignLoop isFlag eps ins outs).map (·.2)).filter isFlag := by
  fun_induction alignLoop isFlag eps ins outs with
  | case1 => simp
  | case2 o outs ih =>
    have hoe : o ≠ eps := by rintro rfl; exact ho (by simp)
    obtain ⟨h1, h2, h3⟩ := ih (by intro p hp; simp at hp) (by simp) (fun h => ho (by simp [h]))
    by_cases hf : isFlag o = true
    · simp [hf] at *; exact ⟨h1, h2, h3⟩
    · simp [hf, he, hoe] at *; exact ⟨h1, h2, h3⟩
  | case3 i ins ih =>
    have hie : i ≠ eps := by rintro rfl; exact hi (by simp)
    obtain ⟨h1, h2, h3⟩ := ih (by intro p hp; simp at hp) (fun h => hi (by simp [h])) (by simp)
    by_cases hf : isFlag i = true
    · simp [hf] at *; exact ⟨h1, h2, h3⟩
    · simp [hf, he, hie] at *; exact ⟨h1, h2, h3⟩
  | case4 i ins o outs hc ih =>
    have hie : i ≠ eps := by rintro rfl; exact hi (by simp)
    have hoe : o ≠ eps := by rintro rfl; exact ho (by simp)
    obtain ⟨h1, h2, h3⟩ := ih (fun p hp => h p (by simp [hp])) (fun h => hi (by simp [h]))
      (fun h => ho (by simp [h]))
    have hflag : isFlag i = isFlag o := by
      simp at hc
      rcases hc with ⟨a, b⟩ | rfl
      · rw [a, b]
      · rfl
    simp only [List.map_cons, List.filter_cons, h1, h2, hie, hoe]
    by_cases hf : isFlag i = true
    · have hf' : isFlag o = true := hflag ▸ hf
      have : i = o := by
        simp [hf] at hc; exact hc
      simp [hf, hf', h3, this]
    · have hf' : ¬ isFlag o = true := hflag ▸ hf
      simp [hf, hf', h3, hie, hoe]
  | case5 i ins o outs hc ih =>
    exfalso
    apply hc
    have : isFlag i = true ∨ isFlag o = true → i = o := h (i, o) (by simp)
    by_cases hi' : isFlag i = true
    · simp [this (Or.inl hi')]
    · by_cases ho' : isFlag o = true
      · simp [this (Or.inr ho')]
      · simp [hi', ho']

example : FlagsAgree (fun s : Nat => s = 9) [1, 9, 2] [3, 9] := by
  intro p hp; simp at hp; rcases hp with rfl | rfl <;> simp

/-! ## C10 -/

/-- Joining symbols by spaces: `gaps` are the numbers of extra spaces after each symbol. -/
def joinSpaces : List (Bytes × Nat) → Bytes
  | [] => []
  | [(x, n)] => x ++ List.replicate n 32
  | (x, n) :: rest => x ++ List.replicate (n + 1) 32 ++ joinSpaces rest

/-- C10: splitting undoes joining.  Any number of leading spaces, at least one space between symbols, any
number at the end; symbols are not empty and have no space in them. Every string is of this form
(`C10_form`). -/
theorem C10_split_join (lead : Nat) (l : List (Bytes × Nat))
    (h : ∀ e ∈ l, e.1 ≠ [] ∧ (32 : Byte) ∉ e.1) :
    tokenizeSpaceSeparated (List.replicate lead 32 ++ joinSpaces l) = l.map fun e => (e.1, e.1) := by
  have spaces : ∀ n s, spaceLoop (List.replicate n 32 ++ s) none = spaceLoop s none := by
    intro n s
    induction n with
    | zero => simp
    | succ n ih => simp [List.replicate_succ, spaceLoop, ih]
  have word : ∀ (x : Bytes) cur s, (32 : Byte) ∉ x → spaceLoop (x ++ s) (some cur) =
      spaceLoop s (some (cur ++ x)) := by
    intro x
    induction x with
    | nil => intro cur s _; simp
    | cons b x ih =>
      intro cur s hx
      have hb : b ≠ 32 := by rintro rfl; simp at hx
      simp only [List.cons_append, spaceLoop, hb, if_false]
      rw [ih _ _ (fun h => hx (by simp [h]))]
      simp
  have word0 : ∀ (x : Bytes) s, x ≠ [] → (32 : Byte) ∉ x → spaceLoop (x ++ s) none =
      spaceLoop s (some x) := by
    intro x s hne hx
    obtain ⟨b, x, rfl⟩ := List.exists_cons_of_ne_nil hne
    have hb : b ≠ 32 := by rintro rfl; simp at hx
    simp only [List.cons_append, spaceLoop, hb, ne_eq, not_false_eq_true, if_true]
    rw [word _ _ _ (fun h => hx (by simp [h]))]
    simp
  have main : ∀ l : List (Bytes × Nat), (∀ e ∈ l, e.1 ≠ [] ∧ (32 : Byte) ∉ e.1) →
      spaceLoop (joinSpaces l) none = l.map (·.1) := by
    intro l
    induction l with
    | nil => intro _; rfl
    | cons e rest ih =>
      intro h
      obtain ⟨x, n⟩ := e
      obtain ⟨hx1, hx2⟩ := h (x, n) (by simp)
      cases rest with
      | nil =>
        simp only [joinSpaces]
        rw [word0 _ _ hx1 hx2]
        cases n with
        | zero => simp [spaceLoop]
        | succ n =>
          have := spaces n []
          simp only [List.append_nil] at this
          simp [List.replicate_succ, spaceLoop, this]
      | cons e' rest =>
        simp only [joinSpaces, List.append_assoc]
        rw [word0 _ _ hx1 hx2]
        simp only [List.replicate_succ, List.cons_append, spaceLoop, if_true]
        rw [spaces, ih (fun e he => h e (by simp [he]))]
        simp
  simp only [tokenizeSpaceSeparated]
  rw [spaces, main l h]
  simp

/-- Every string is of the form `C10_split_join` speaks about. -/
theorem C10_form (s : Bytes) : ∃ lead l, (∀ e ∈ l, e.1 ≠ [] ∧ (32 : Byte) ∉ e.1) ∧
    s = List.replicate lead 32 ++ joinSpaces l := by
  induction s with
  | nil => exact ⟨0, [], by simp, rfl⟩
  | cons b s ih =>
    obtain ⟨lead, l, h, rfl⟩ := ih
    by_cases hb : b = 32
    · subst hb
      exact ⟨lead + 1, l, h, by simp [List.replicate_succ]⟩
    · cases lead with
      | succ lead =>
        refine ⟨0, ([b], if l = [] then lead + 1 else lead) :: l, ?_, ?_⟩
        · intro e he
          rcases List.mem_cons.mp he with rfl | he
          · simp [Ne.symm hb]
          · exact h e he
        · cases l with
          | nil => simp [joinSpaces]
          | cons e l => simp [joinSpaces]
      | zero =>
        cases l with
        | nil => exact ⟨0, [([b], 0)], by simp [Ne.symm hb], by simp [joinSpaces]⟩
        | cons e l =>
          obtain ⟨x, n⟩ := e
          refine ⟨0, (b :: x, n) :: l, ?_, ?_⟩
          · intro e he
            rcases List.mem_cons.mp he with rfl | he
            · obtain ⟨_, h2⟩ := h (x, n) (by simp)
              simp [Ne.symm hb, h2]
            · exact h e (by simp [he])
          · cases l <;> simp [joinSpaces]

example : tokenizeSpaceSeparated [32, 97, 98, 32, 32, 99] = [([97, 98], [97, 98]), ([99], [99])] := by decide

end Hfst.Tok
