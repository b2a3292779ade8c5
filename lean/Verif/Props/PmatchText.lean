import Verif.Props.PmatchRun

/-!
# C63: matching and locating keep the text
-/
namespace Hfst.Pmatch
open Hfst.Basic Hfst.Ol

/-! ## Cutting the text into symbols -/

theorem bind_assoc {α β γ : Type} (x : Outcome α) (f : α → Outcome β) (g : β → Outcome γ) :
    (x.bind f).bind g = x.bind fun a => (f a).bind g := by
  cases x <;> rfl

theorem readSymbols_snoc : ∀ (xs : List Bytes) (k : Nat) (e : Encoder) (x : Bytes),
    Encoder.readSymbols (xs ++ [x]) k e = (Encoder.readSymbols xs k e).bind fun e => e.readSymbol x (k + xs.length)
  | [], k, e, x => by
    show (e.readSymbol x k).bind (fun e => Encoder.readSymbols [] (k + 1) e) = _
    show _ = e.readSymbol x (k + 0)
    rw [Nat.add_zero]
    cases e.readSymbol x k <;> rfl
  | y :: xs, k, e, x => by
    rw [List.cons_append, Encoder.readSymbols, Encoder.readSymbols, bind_assoc]
    congr 1
    funext e'
    rw [readSymbols_snoc xs (k + 1) e' x, List.length_cons]
    congr 1
    funext e''
    congr 1
    omega

theorem make_all (table : List Bytes) : Encoder.make table table.length = Encoder.readSymbols table 0 ⟨.empty, fun _ => noSymbol⟩ := by
  unfold Encoder.make
  rw [if_neg (by omega), List.take_length]

theorem make_snoc {table : List Bytes} {e e' : Encoder} {x : Bytes} (h : Encoder.make table table.length = .ok e)
    (hx : e.readSymbol x table.length = .ok e') : Encoder.make (table ++ [x]) (table ++ [x]).length = .ok e' := by
  rw [make_all] at h ⊢
  rw [readSymbols_snoc, h]
  show e.readSymbol x (0 + table.length) = _
  rw [Nat.zero_add]; exact hx

/-- The alphabet `al'` is `al` with new printable symbols. -/
structure Extends (al al' : PmAlphabet) : Prop where
  table : ∃ l, al'.base.table = al.base.table ++ l
  printable : ∃ l, al'.printable = al.printable ++ l ∧ ∀ b ∈ l, b = true
  lists : ∃ l, al'.list2symbols = al.list2symbols ++ l
  symbolLists : ∃ l, al'.symbolLists = al.symbolLists ++ l ∧ ∀ x ∈ l, x = al.exclusions
  size : al.printable.length = al.base.table.length → al'.printable.length = al'.base.table.length
  exclusions : al'.exclusions = al.exclusions
  specials : al'.entry = al.entry ∧ al'.exit = al.exit ∧ al'.passthrough = al.passthrough ∧ al'.boundary = al.boundary ∧
    al'.alpha = al.alpha ∧ al'.upper = al.upper ∧ al'.lower = al.lower ∧ al'.space = al.space
  base : al'.base.identity = al.base.identity ∧ al'.base.unknown = al.base.unknown ∧ al'.base.default = al.base.default
  tags : al'.endTags = al.endTags

theorem Extends.refl (al : PmAlphabet) : Extends al al where
  table := ⟨[], (List.append_nil _).symm⟩
  printable := ⟨[], (List.append_nil _).symm, fun b hb => by cases hb⟩
  lists := ⟨[], (List.append_nil _).symm⟩
  symbolLists := ⟨[], (List.append_nil _).symm, fun b hb => by cases hb⟩
  size := id
  exclusions := rfl
  specials := ⟨rfl, rfl, rfl, rfl, rfl, rfl, rfl, rfl⟩
  base := ⟨rfl, rfl, rfl⟩
  tags := rfl

theorem Extends.add (al : PmAlphabet) (x : Bytes) : Extends al (al.addSymbol x) where
  table := ⟨[x], rfl⟩
  printable := ⟨[true], rfl, fun b hb => by rw [List.mem_singleton] at hb; exact hb⟩
  lists := ⟨[noSymbol], rfl⟩
  symbolLists := by
    by_cases h : al.exclusions = []
    · refine ⟨[], ?_, fun b hb => by cases hb⟩
      show (if al.exclusions = [] then al.symbolLists else al.symbolLists ++ [al.exclusions]) = _
      rw [if_pos h, List.append_nil]
    · refine ⟨[al.exclusions], ?_, fun b hb => by rw [List.mem_singleton] at hb; exact hb⟩
      show (if al.exclusions = [] then al.symbolLists else al.symbolLists ++ [al.exclusions]) = _
      rw [if_neg h]
  size := fun h => by
    show (al.printable ++ [true]).length = (al.base.table ++ [x]).length
    rw [List.length_append, List.length_append, h]; rfl
  exclusions := rfl
  specials := ⟨rfl, rfl, rfl, rfl, rfl, rfl, rfl, rfl⟩
  base := ⟨rfl, rfl, rfl⟩
  tags := rfl

theorem Extends.trans {a b c : PmAlphabet} (h1 : Extends a b) (h2 : Extends b c) : Extends a c where
  table := by
    obtain ⟨l, e⟩ := h1.table
    obtain ⟨l', e'⟩ := h2.table
    exact ⟨l ++ l', by rw [e', e, List.append_assoc]⟩
  printable := by
    obtain ⟨l, e, h⟩ := h1.printable
    obtain ⟨l', e', h'⟩ := h2.printable
    refine ⟨l ++ l', by rw [e', e, List.append_assoc], ?_⟩
    intro b hb
    rcases List.mem_append.mp hb with hb | hb
    · exact h b hb
    · exact h' b hb
  lists := by
    obtain ⟨l, e⟩ := h1.lists
    obtain ⟨l', e'⟩ := h2.lists
    exact ⟨l ++ l', by rw [e', e, List.append_assoc]⟩
  symbolLists := by
    obtain ⟨l, e, h⟩ := h1.symbolLists
    obtain ⟨l', e', h'⟩ := h2.symbolLists
    refine ⟨l ++ l', by rw [e', e, List.append_assoc], ?_⟩
    intro b hb
    rcases List.mem_append.mp hb with hb | hb
    · exact h b hb
    · rw [h' b hb, h1.exclusions]
  size := fun h => h2.size (h1.size h)
  exclusions := h2.exclusions.trans h1.exclusions
  specials := by
    obtain ⟨a1, a2, a3, a4, a5, a6, a7, a8⟩ := h1.specials
    obtain ⟨b1, b2, b3, b4, b5, b6, b7, b8⟩ := h2.specials
    exact ⟨b1.trans a1, b2.trans a2, b3.trans a3, b4.trans a4, b5.trans a5, b6.trans a6, b7.trans a7, b8.trans a8⟩
  base := by
    obtain ⟨a1, a2, a3⟩ := h1.base
    obtain ⟨b1, b2, b3⟩ := h2.base
    exact ⟨b1.trans a1, b2.trans a2, b3.trans a3⟩
  tags := h2.tags.trans h1.tags

theorem Extends.printable_old {al al' : PmAlphabet} (h : Extends al al') {k : Nat} (hk : k < al.printable.length) :
    al'.isPrintable k = al.isPrintable k := by
  obtain ⟨l, e, _⟩ := h.printable
  unfold PmAlphabet.isPrintable
  rw [e, List.getElem?_append_left hk]

theorem Extends.printable_new {al al' : PmAlphabet} (h : Extends al al') {k : Nat} (h1 : al.printable.length ≤ k)
    (h2 : k < al'.printable.length) : al'.isPrintable k = true := by
  obtain ⟨l, e, hl⟩ := h.printable
  unfold PmAlphabet.isPrintable
  rw [e] at h2 ⊢
  rw [List.getElem?_append_right h1]
  rw [List.length_append] at h2
  have hlt : k - al.printable.length < l.length := by omega
  rw [List.getElem?_eq_getElem hlt]
  exact hl _ (List.getElem_mem hlt)

theorem Extends.table_old {al al' : PmAlphabet} (h : Extends al al') {k : Nat} {x : Bytes} (hk : al.base.table[k]? = some x) :
    al'.base.table[k]? = some x := by
  obtain ⟨l, e⟩ := h.table
  rw [e, List.getElem?_append_left (List.getElem?_eq_some_iff.mp hk).1]
  exact hk

theorem Extends.isEndTag {al al' : PmAlphabet} (h : Extends al al') (x : Nat) : al'.isEndTag x = al.isEndTag x := by
  unfold PmAlphabet.isEndTag
  rw [h.tags]

theorem Extends.isMeta {al al' : PmAlphabet} (h : Extends al al') (x : Nat) : al'.isMeta x = al.isMeta x := by
  unfold PmAlphabet.isMeta Alphabet.isMeta
  obtain ⟨_, _, _, _, a5, a6, a7, a8⟩ := h.specials
  obtain ⟨b1, b2, b3⟩ := h.base
  rw [a5, a6, a7, a8, b1, b2, b3]

theorem Extends.generic {al al' : PmAlphabet} (h : Extends al al') {x : Nat} (hx : Generic al' x) : Generic al x := by
  unfold Generic at hx ⊢
  obtain ⟨_, _, _, _, a5, a6, a7, a8⟩ := h.specials
  obtain ⟨b1, b2, b3⟩ := h.base
  rw [a5, a6, a7, a8, b1, b2, b3, h.exclusions] at hx
  rcases hx with hx | hx | hx | hx | hx | hx | hx | hx | ⟨l, hl, hx⟩
  · exact .inl hx
  · exact .inr (.inl hx)
  · exact .inr (.inr (.inl hx))
  · exact .inr (.inr (.inr (.inl hx)))
  · exact .inr (.inr (.inr (.inr (.inl hx))))
  · exact .inr (.inr (.inr (.inr (.inr (.inl hx)))))
  · exact .inr (.inr (.inr (.inr (.inr (.inr (.inl hx))))))
  · exact .inr (.inr (.inr (.inr (.inr (.inr (.inr (.inl hx)))))))
  · obtain ⟨m, e, hm⟩ := h.symbolLists
    rw [e] at hl
    rcases List.mem_append.mp hl with hl | hl
    · exact .inr (.inr (.inr (.inr (.inr (.inr (.inr (.inr ⟨l, hl, hx⟩)))))))
    · rw [hm l hl] at hx
      exact .inr (.inr (.inr (.inr (.inr (.inr (.inr (.inl hx)))))))

theorem Extends.list_old {al al' : PmAlphabet} (h : Extends al al') {k l : Nat} (hk : al.list2symbols[k]? = some l) :
    al'.list2symbols[k]? = some l := by
  obtain ⟨m, e⟩ := h.lists
  rw [e, List.getElem?_append_left (List.getElem?_eq_some_iff.mp hk).1]
  exact hk

theorem Extends.faithful {al al' : PmAlphabet} (h : Extends al al') {nets : List Tables} (hf : Faithful al nets) : Faithful al' nets := by
  refine ⟨?_, ?_⟩
  · intro T hT e he hne hg
    rcases hf.generic T hT e he hne (h.generic hg) with hm | ⟨l, hl, hl'⟩
    · exact .inl (by rw [h.isMeta]; exact hm)
    · exact .inr ⟨l, h.list_old hl, hl'⟩
  · intro T hT e he ht
    rw [h.isEndTag] at ht
    exact hf.tags T hT e he ht

theorem Extends.length {al al' : PmAlphabet} (h : Extends al al') : al.base.table.length ≤ al'.base.table.length := by
  obtain ⟨l, e⟩ := h.table
  rw [e, List.length_append]; omega

theorem Extends.marks {al al' : PmAlphabet} (h : Extends al al') (hm : Marks al) (hx : ∀ x ∈ al'.base.table, x ≠ [] ∧ 0 ∉ x) : Marks al' := by
  have hle := h.length
  have hold : ∀ {k}, k < al.base.table.length → al'.isPrintable k = al.isPrintable k := fun hk => h.printable_old (by rw [hm.size]; exact hk)
  obtain ⟨a1, a2, _, a4, _⟩ := h.specials
  refine ⟨h.size hm.size, by have := hm.nonempty; omega, hx, ?_, ?_, ?_, ?_⟩
  · rw [hold hm.nonempty]; exact hm.epsilon
  · intro x hx
    rw [a1, a2] at hx
    rcases hm.ends x hx with h1 | ⟨h1, h2⟩
    · exact .inl h1
    · exact .inr ⟨by omega, by rw [hold h1]; exact h2⟩
  · rw [a4]
    intro hb
    obtain ⟨h1, h2, h3, h4⟩ := hm.boundary hb
    exact ⟨h1, by omega, by rw [hold h2]; exact h3, by rw [h.isEndTag]; exact h4⟩
  · intro x hx
    rw [h.isEndTag] at hx
    obtain ⟨h1, h2⟩ := hm.tags x hx
    exact ⟨by omega, by rw [hold h1]; exact h2⟩

theorem Extends.plain {al al' : PmAlphabet} (h : Extends al al') (hs : al.printable.length = al.base.table.length) {t : Bytes} (hp : Plain al t) :
    Plain al' t := by
  intro k x hk hu
  by_cases hlt : k < al.base.table.length
  · rw [h.printable_old (by rw [hs]; exact hlt)] at hu
    obtain ⟨l, e⟩ := h.table
    rw [e, List.getElem?_append_left hlt] at hk
    exact hp k x hk hu
  · rw [h.printable_new (by rw [hs]; omega) (by rw [h.size hs]; exact (List.getElem?_eq_some_iff.mp hk).1)] at hu
    cases hu

theorem ready_inv {m : Memory} (h : Ready m) (hs : ∀ x ∈ m.al.base.table, x ≠ [] ∧ 0 ∉ x) :
    EncInv (knownOf m.al.base.table m.al.base.table.length []) m.enc := by
  obtain ⟨e, h1, h2⟩ := make_knows (Nat.le_refl _) hs
  unfold Ready at h
  rw [h] at h1
  injection h1 with h1
  rw [h1]; exact h2

/-- The part of the text that the cutter takes is the symbol that it finds. -/
theorem cutter_find {K : Cutter} {m : Memory} (hready : Ready m) (hs : ∀ x ∈ m.al.base.table, x ≠ [] ∧ 0 ∉ x)
    (hsize : m.al.base.table.length ≤ noSymbol) {s : Bytes} (hne : s ≠ []) (hclean : K.single = true → 0 < K.bytes s ∧
      ∀ x ∈ m.al.base.table, x <+: s.take (K.bytes s) → x = s.take (K.bytes s)) {k : Nat} {r : Nat × Nat} (e : K.find m.enc s k = .ok r)
    (hr : r.1 ≠ noSymbol) : 0 < r.2 ∧ r.2 ≤ s.length ∧ m.al.base.table[r.1]? = some (s.take r.2) := by
  have hfind : ∀ {t : Bytes}, t ≠ [] → ∀ {q : Nat × Nat}, m.enc.find t = .ok q → q.1 ≠ noSymbol →
      q.2 ≤ t.length ∧ m.al.base.table[q.1]? = some (t.take q.2) := by
    intro t ht q hq hq1
    obtain ⟨q', e1, e2⟩ := encFind_spec (ready_inv hready hs) ht
    rw [hq] at e1
    injection e1 with e1
    rw [← e1] at e2
    rcases longest_of (Nat.le_refl _) (extra := []) (by simp only [List.length_nil]; omega) e2 with ⟨h1, _⟩ | ⟨_, h2, h3⟩
    · exact absurd h1 hq1
    · rw [List.append_nil] at h3
      exact ⟨h2, h3.knows.2⟩
  have hpos : ∀ {t : Bytes} {q : Nat × Nat}, m.al.base.table[q.1]? = some (t.take q.2) → 0 < q.2 := by
    intro t q hq
    rcases Nat.eq_zero_or_pos q.2 with h0 | h0
    · rw [h0, List.take_zero] at hq
      exact absurd rfl (hs _ (List.mem_of_getElem? hq)).1
    · exact h0
  unfold Cutter.find at e
  split at e
  · rename_i hsingle
    obtain ⟨c1, c2⟩ := hclean hsingle
    rw [if_pos c1] at e
    split at e
    · cases e
    · rename_i hlen
      rw [bind_ok] at e
      obtain ⟨q, e1, e⟩ := e
      injection e with e
      rw [← e] at hr ⊢
      dsimp only at hr ⊢
      have htne : s.take (K.bytes s) ≠ [] := by
        intro h0
        have := congrArg List.length h0
        rw [List.length_take, List.length_nil] at this
        have : s.length ≠ 0 := fun h => hne (List.length_eq_zero_iff.mp h)
        omega
      obtain ⟨f1, f2⟩ := hfind htne e1 hr
      have := c2 _ (List.mem_of_getElem? f2) (List.take_prefix _ _)
      rw [this] at f2
      exact ⟨c1, by omega, f2⟩
  · obtain ⟨f1, f2⟩ := hfind hne e hr
    exact ⟨hpos f2, f1, f2⟩

theorem infix_of_suffix {x s text : Bytes} (h1 : x <+: s) (h2 : s <:+ text) : x <:+: text :=
  h1.isInfix.trans h2.isInfix

/-- Cutting a text gives symbols that spell it. -/
theorem cutText_ok {K : Cutter} {text : Bytes} : ∀ (fuel : Nat) (s : Bytes) (k : Nat) (m : Memory) (r : List Nat × PmAlphabet × Encoder),
    s <:+ text → 0 ∉ s → Ready m → (∀ x ∈ m.al.base.table, x ≠ [] ∧ 0 ∉ x) → m.al.printable.length = m.al.base.table.length →
    m.al.base.table.length + s.length ≤ noSymbol → Clean K m.al.base.table text → Plain m.al text →
    cutText K fuel s k m.al m.enc = .ok r →
      Extends m.al r.2.1 ∧ Ready ⟨r.2.1, r.2.2⟩ ∧ (∀ x ∈ r.2.1.base.table, x ≠ [] ∧ 0 ∉ x) ∧
      (∀ k ∈ r.1, r.2.1.isPrintable k = true ∧ k < r.2.1.base.table.length) ∧
      (r.1.map fun k => (r.2.1.base.table[k]?).getD []).flatten = s ∧
      r.2.1.base.table.length ≤ m.al.base.table.length + s.length
  | 0, _, _, _, _, _, _, _, _, _, _, _, _, e => by cases e
  | fuel + 1, [], k, m, r, _, _, hready, hs, _, _, _, _, e => by
    injection e with e
    rw [← e]
    refine ⟨Extends.refl _, hready, hs, ?_, rfl, Nat.le_refl _⟩
    intro j hj
    cases hj
  | fuel + 1, c :: rest, k, m, r, hsuf, h0, hready, hs, hpl, hsize, hclean, hplain, e => by
    rw [cutText, bind_ok] at e
    obtain ⟨q, e1, e⟩ := e
    have hcl : K.single = true → 0 < K.bytes (c :: rest) ∧
        ∀ x ∈ m.al.base.table, x <+: (c :: rest).take (K.bytes (c :: rest)) → x = (c :: rest).take (K.bytes (c :: rest)) :=
      fun h => ⟨(hclean h _ (by simp) hsuf).1, (hclean h _ (by simp) hsuf).2.1⟩
    split at e
    · dsimp only at e
      generalize hm : (if K.bytes (c :: rest) = 0 then 1 else K.bytes (c :: rest)) = n at e
      split at e
      · cases e
      rename_i hlen
      have hn : 0 < n := by
        rw [← hm]; split <;> omega
      have hx0 : (c :: rest).take n ≠ [] := by
        intro h
        have := congrArg List.length h
        rw [List.length_take, List.length_nil, List.length_cons] at this
        omega
      have hxn : 0 ∉ (c :: rest).take n := fun h => h0 (List.mem_of_mem_take h)
      rw [bind_ok] at e
      obtain ⟨e', e2, e⟩ := e
      rw [bind_ok] at e
      obtain ⟨r', e3, e⟩ := e
      injection e with e
      have hdrop : ((c :: rest).drop n) <:+ text := (List.drop_suffix _ _).trans hsuf
      have hlen' : ((c :: rest).take n).length = n := by rw [List.length_take]; omega
      have hready' : Ready ⟨m.al.addSymbol ((c :: rest).take n), e'⟩ := make_snoc hready e2
      have hs' : ∀ x ∈ (m.al.addSymbol ((c :: rest).take n)).base.table, x ≠ [] ∧ 0 ∉ x := by
        intro x hx
        rcases List.mem_append.mp hx with hx | hx
        · exact hs x hx
        · rw [List.mem_singleton] at hx; rw [hx]; exact ⟨hx0, hxn⟩
      have hclean' : Clean K (m.al.addSymbol ((c :: rest).take n)).base.table text := by
        intro h s hsne hss
        obtain ⟨d1, d2, d3⟩ := hclean h s hsne hss
        refine ⟨d1, ?_, d3⟩
        intro x hx hpre
        rcases List.mem_append.mp hx with hx | hx
        · exact d2 x hx hpre
        · rw [List.mem_singleton] at hx
          have hn' : n = K.bytes (c :: rest) := by
            rw [← hm, if_neg (by have := (hcl h).1; omega)]
          rw [hx, hn'] at hpre ⊢
          exact d3 _ (by simp) hsuf hpre
      have hplain' : Plain (m.al.addSymbol ((c :: rest).take n)) text := by
        intro j x hj hp
        have hext := Extends.add m.al ((c :: rest).take n)
        by_cases hjl : j < m.al.base.table.length
        · have hj' : m.al.base.table[j]? = some x := by
            have : (m.al.addSymbol ((c :: rest).take n)).base.table = m.al.base.table ++ [(c :: rest).take n] := rfl
            rw [this, List.getElem?_append_left hjl] at hj
            exact hj
          rw [hext.printable_old (by rw [hpl]; exact hjl)] at hp
          exact hplain j x hj' hp
        · have hlt := (List.getElem?_eq_some_iff.mp hj).1
          rw [hext.printable_new (by rw [hpl]; omega) (by rw [hext.size hpl]; exact hlt)] at hp
          cases hp
      have hlast : (m.al.base.table ++ [(c :: rest).take n])[m.al.base.table.length]? = some ((c :: rest).take n) := by
        rw [List.getElem?_append_right (Nat.le_refl _), Nat.sub_self]; rfl
      obtain ⟨i1, i2, i3, i4, i5, i6⟩ := cutText_ok fuel ((c :: rest).drop n) m.al.base.table.length ⟨_, e'⟩ r' hdrop
        (fun h => h0 (List.mem_of_mem_drop h)) hready' hs' ((Extends.add _ _).size hpl)
        (by
          show (m.al.base.table ++ [(c :: rest).take n]).length + _ ≤ _
          rw [List.length_append, List.length_singleton, List.length_drop]
          rw [List.length_cons] at hsize ⊢
          omega) hclean' hplain' e3
      rw [← e]
      have hlen1 : (m.al.addSymbol ((c :: rest).take n)).base.table.length = m.al.base.table.length + 1 := by
        show (m.al.base.table ++ [(c :: rest).take n]).length = _
        rw [List.length_append]; rfl
      refine ⟨(Extends.add _ _).trans i1, i2, i3, ?_, ?_, ?_⟩
      · intro j hj
        rcases List.mem_cons.mp hj with rfl | hj
        · have hle := i1.length
          have hext := (Extends.add m.al ((c :: rest).take n)).trans i1
          dsimp only at hle ⊢
          refine ⟨hext.printable_new (by omega) ?_, ?_⟩
          · rw [hext.size hpl]; omega
          · omega
        · exact i4 j hj
      · rw [List.map_cons, List.flatten_cons, i5, i1.table_old hlast]
        exact List.take_append_drop _ _
      · dsimp only at i6 ⊢
        rw [List.length_drop] at i6
        omega
    · rename_i hq
      split at e
      · cases e
      obtain ⟨f1, f2, f3⟩ := cutter_find hready hs (by omega) (by simp) hcl e1 hq
      rw [bind_ok] at e
      obtain ⟨r', e3, e⟩ := e
      injection e with e
      obtain ⟨i1, i2, i3, i4, i5, i6⟩ := cutText_ok fuel ((c :: rest).drop q.2) q.1 m r' ((List.drop_suffix _ _).trans hsuf)
        (fun h => h0 (List.mem_of_mem_drop h)) hready hs hpl (by rw [List.length_drop]; omega) hclean hplain e3
      rw [← e]
      refine ⟨i1, i2, i3, ?_, ?_, ?_⟩
      · intro j hj
        rcases List.mem_cons.mp hj with rfl | hj
        · have hlt := (List.getElem?_eq_some_iff.mp f3).1
          refine ⟨?_, by have := i1.length; dsimp only at this ⊢; omega⟩
          rw [i1.printable_old (by rw [hpl]; exact hlt)]
          cases hp : m.al.isPrintable q.1 with
          | true => rfl
          | false => exact absurd (infix_of_suffix (List.take_prefix _ _) hsuf) (hplain q.1 _ f3 hp)
        · exact i4 j hj
      · rw [List.map_cons, List.flatten_cons, i5, i1.table_old f3]
        exact List.take_append_drop _ _
      · dsimp only at i6 ⊢
        rw [List.length_drop] at i6
        omega

/-! ## The symbols of a text -/

theorem edge_of {al : PmAlphabet} {k : Nat} (h : k ∈ al.edge) : al.boundary ≠ noSymbol ∧ k = al.boundary := by
  unfold PmAlphabet.edge at h
  split at h
  · cases h
  · rename_i hb
    exact ⟨hb, List.mem_singleton.mp h⟩

theorem shown_edge {al : PmAlphabet} (hm : Marks al) : shownSymbols al al.edge = [] := by
  unfold shownSymbols
  rw [List.map_eq_nil_iff, List.filter_eq_nil_iff]
  intro k hk
  obtain ⟨h1, h2⟩ := edge_of hk
  rw [h2, (hm.boundary h1).2.2.1]
  simp

theorem edge_extends {al al' : PmAlphabet} (h : Extends al al') : al.edge = al'.edge := by
  unfold PmAlphabet.edge
  rw [h.specials.2.2.2.1]

/-- What is known about the symbols of a text, with the boundaries. -/
structure Cut (al al' : PmAlphabet) (text : Bytes) (input : List Nat) : Prop where
  ext : Extends al al'
  marks : Marks al'
  symbols : ∀ k ∈ input, k ≠ 0 ∧ k < al'.base.table.length ∧ al'.isEndTag k = false
  shown : (shownSymbols al' input).flatten = text
  printable : al.boundary = noSymbol → ∀ k ∈ input, al'.isPrintable k = true
  room : al'.base.table.length ≤ noSymbol
  size : al'.base.table.length ≤ al.base.table.length + text.length

theorem cut_of {X : Container} {m : Memory} {text : Bytes} {fuel k : Nat} (h : Fit X m text) {q : List Nat × PmAlphabet × Encoder}
    (e : cutText X.cutter fuel text k m.al m.enc = .ok q) :
    Cut m.al q.2.1 text (m.al.edge ++ q.1 ++ m.al.edge) ∧ Ready ⟨q.2.1, q.2.2⟩ := by
  obtain ⟨i1, i2, i3, i4, i5, i6⟩ := cutText_ok fuel text k m q (List.suffix_refl _) h.ends h.ready h.marks.strings h.marks.size h.room h.clean
    h.plain e
  have hm := i1.marks h.marks i3
  have hfilter : q.1.filter (fun k => q.2.1.isPrintable k) = q.1 := List.filter_eq_self.mpr fun k hk => (i4 k hk).1
  have hsym : ∀ k ∈ m.al.edge, k ≠ 0 ∧ k < q.2.1.base.table.length ∧ q.2.1.isEndTag k = false := by
    intro k hk
    rw [edge_extends i1] at hk
    obtain ⟨h1, h2⟩ := edge_of hk
    obtain ⟨b1, b2, b3, b4⟩ := hm.boundary h1
    rw [h2]
    exact ⟨b1, b2, b4⟩
  refine ⟨⟨i1, hm, ?_, ?_, ?_, Nat.le_trans i6 h.room, i6⟩, i2⟩
  · intro k hk
    rcases List.mem_append.mp hk with hk | hk
    · rcases List.mem_append.mp hk with hk | hk
      · exact hsym k hk
      · obtain ⟨h1, h2⟩ := i4 k hk
        refine ⟨?_, h2, ?_⟩
        · rintro rfl
          rw [hm.epsilon] at h1
          cases h1
        · cases ht : q.2.1.isEndTag k with
          | false => rfl
          | true => rw [(hm.tags k ht).2] at h1; cases h1
    · exact hsym k hk
  · rw [edge_extends i1, shown_append, shown_append, shown_edge hm, List.nil_append, List.append_nil]
    unfold shownSymbols
    rw [hfilter]
    exact i5
  · intro hb k hk
    have he : m.al.edge = [] := by
      unfold PmAlphabet.edge
      rw [if_pos hb]
    rw [he, List.append_nil, List.nil_append] at hk
    exact (i4 k hk).1

theorem rule_tags {C : Config} (hf : Faithful C.al C.nets) (hs : ∀ k ∈ C.input, k ≠ 0 ∧ C.al.isEndTag k = false) : Rule C (TagsFree C.al) where
  nonzero := fun h => (hs 0 h).1 rfl
  same := fun c hc ht => by
    have ht : C.al.isEndTag c = true := ht
    rw [(hs c hc).2] at ht
    cases ht
  free := fun T hT e he _ _ => rfl
  plain := fun T hT e he _ _ _ ht => hf.tags T hT e he ht
  generic := hf.generic

/-- C63: the locations that `locate` finds cover the text one after the other, without gaps or overlaps: the input symbols that they show,
concatenated, are the text, and if there is no boundary symbol, each location tells how many symbols come before it. -/
theorem C63_locate_partial {order : List Location → List Location} (ho : ∀ l, (order l).Perm l) {X : Container} {maxWeight : Option Int} {fuel : Nat}
    {m m' : Memory} {text : Bytes} {s : State} {groups : List (List Location)} (h : Fit X m text)
    (e : locateText order X maxWeight fuel m text s = .ok (groups, m')) :
    (∃ xs : List Bytes, xs.flatten = text ∧ Tiles (m.al.boundary = noSymbol) 0 xs groups) ∧ Kept X m m' text := by
  unfold locateText processText at e
  rw [bind_ok] at e
  obtain ⟨r, e, e'⟩ := e
  rw [bind_ok] at e
  obtain ⟨q, e1, e⟩ := e
  rw [bind_ok] at e
  obtain ⟨p, e2, e⟩ := e
  injection e with e
  injection e' with e'
  injection e' with e3 e4
  obtain ⟨hc, hready⟩ := cut_of h e1
  have hf := hc.ext.faithful h.faithful
  rw [← e] at e3 e4
  rw [← e3, ← e4]
  refine ⟨⟨_, hc.shown, ?_⟩, hready, hc.marks, hf, hc.ext.specials.2.2.2.1, fun t => hc.ext.plain h.marks.size, hc.size⟩
  have := process_locate ho (rule_tags hf fun k hk => ⟨(hc.symbols k hk).1, (hc.symbols k hk).2.2⟩) hc.marks rfl e2
  exact this.weaken hc.printable

/-- C63 for one text after the other: whatever texts were located before, the locations of the next text cover it. -/
theorem C63_locate_history_partial {order : List Location → List Location} (ho : ∀ l, (order l).Perm l) {X : Container} (hX : X.cutter.single = false)
    {maxWeight : Option Int} {fuel : Nat} : ∀ (texts : List (Bytes × State)) (m m' : Memory) (gs : List (List (List Location))),
      Ready m → Marks m.al → Faithful m.al X.nets → (∀ t ∈ texts, Plain m.al t.1 ∧ 0 ∉ t.1) →
      m.al.base.table.length + (texts.map fun t => t.1.length).sum ≤ noSymbol →
      locateTexts order X maxWeight fuel texts m = .ok (gs, m') → gs.length = texts.length ∧
      ∀ (i : Nat) (t : Bytes × State) (g : List (List Location)), texts[i]? = some t → gs[i]? = some g →
        ∃ xs : List Bytes, xs.flatten = t.1 ∧ Tiles (m.al.boundary = noSymbol) 0 xs g
  | [], m, m', gs, _, _, _, _, _, e => by
    injection e with e
    injection e with e1 e2
    rw [← e1]
    exact ⟨rfl, fun i t g ht => by cases ht⟩
  | t :: texts, m, m', gs, hr, hm, hf, hp, hroom, e => by
    rw [locateTexts, bind_ok] at e
    obtain ⟨q, e1, e⟩ := e
    rw [bind_ok] at e
    obtain ⟨q', e2, e⟩ := e
    injection e with e
    injection e with e3 e4
    rw [List.map_cons, List.sum_cons] at hroom
    have hfit : Fit X m t.1 := ⟨hr, hm, hf, (hp t (List.mem_cons_self ..)).1, (fun h => by rw [hX] at h; cases h),
      (hp t (List.mem_cons_self ..)).2, by omega⟩
    obtain ⟨h1, hk⟩ := C63_locate_partial ho (groups := q.1) (m' := q.2) hfit e1
    have hsize := hk.size
    obtain ⟨h2, h3⟩ := C63_locate_history_partial ho hX texts q.2 q'.2 q'.1 hk.ready hk.marks hk.faithful
      (fun t' ht' => ⟨hk.plain _ (hp t' (List.mem_cons_of_mem _ ht')).1, (hp t' (List.mem_cons_of_mem _ ht')).2⟩) (by omega) e2
    rw [← e3]
    refine ⟨by rw [List.length_cons, List.length_cons, h2], ?_⟩
    intro i t' g ht hg
    cases i with
    | zero =>
      injection ht with ht
      injection hg with hg
      rw [← ht, ← hg]
      exact h1
    | succ i =>
      have := h3 i t' g ht hg
      rw [hk.boundary] at this
      exact this

/-! ## Tags in a text -/

/-- A pair that shows the same on both sides. -/
def Shows (al : PmAlphabet) (p : Nat × Nat) : Prop := (p.1 = p.2 ∧ p.1 ≠ noSymbol) ∨ (p.1 = 0 ∧ al.isPrintable p.2 = false)

theorem rule_shows {al : PmAlphabet} {C : Config} (hext : Extends al C.al) (hsize : al.printable.length = al.base.table.length)
    (hf : Faithful C.al C.nets) (hm : Marker al C.nets) (hs : ∀ k ∈ C.input, k ≠ 0 ∧ k ≠ noSymbol) : Rule C (Shows C.al) where
  nonzero := fun h => (hs 0 h).1 rfl
  same := fun c hc => .inl ⟨rfl, (hs c hc).2⟩
  free := fun T hT e he h0 => by
    obtain ⟨h1, h2⟩ := hm.marks T hT e he h0
    refine .inr ⟨rfl, ?_⟩
    show C.al.isPrintable e.output = false
    rw [hext.printable_old (by rw [hsize]; exact h1)]
    exact h2
  plain := fun T hT e he hin hmeta hlist => by
    obtain ⟨h1, h2⟩ := hs _ hin
    rcases hm.reads T hT e he h1 with h | h | ⟨l, hl, hl'⟩
    · exact .inl ⟨h.symm, h2⟩
    · rw [hext.isMeta, h] at hmeta
      cases hmeta
    · rw [hext.list_old hl] at hlist
      injection hlist with hlist
      exact absurd hlist hl'
  generic := hf.generic

theorem shown_cons (al : PmAlphabet) (k : Nat) (ks : List Nat) :
    shownSymbols al (k :: ks) = (if al.isPrintable k = true then [(al.base.table[k]?).getD []] else []) ++ shownSymbols al ks := by
  unfold shownSymbols
  rw [List.filter_cons]
  split <;> rfl

theorem shown_inputs {al : PmAlphabet} (h0 : al.isPrintable 0 = false) (p : Nat × Nat) (ps : List (Nat × Nat)) :
    (shownSymbols al (inputsOf (p :: ps))).flatten =
      (if al.isPrintable p.1 = true then (al.base.table[p.1]?).getD [] else []) ++ (shownSymbols al (inputsOf ps)).flatten := by
  unfold inputsOf
  rw [List.map_cons, List.filter_cons]
  by_cases hp : p.1 = 0
  · rw [if_neg (by simp [hp]), hp, h0, if_neg (by simp)]
    rfl
  · rw [if_pos (by simpa using hp), shown_cons, List.flatten_append]
    congr 1
    split
    · exact List.flatten_singleton
    · rfl

theorem Tagged.put' {tags : Bytes → Prop} {a r t : Bytes} (ht : tags t) (pos : Nat) (h : Tagged tags a r) :
    Tagged tags a (r.take pos ++ t ++ r.drop pos) := by
  apply Tagged.put ht
  rw [List.take_append_drop]
  exact h

theorem stringLoop_ok {al : PmAlphabet} {X : Container} (hm : Marks al) (hsize : al.base.table.length ≤ noSymbol) (hx : X.extract = false)
    (hd : X.delete = false) : ∀ (ps : List (Nat × Nat)) (a r : Bytes) (tags : List Nat) (b : Bool) (out : Bytes), (∀ p ∈ ps, Shows al p) →
      Tagged (TagString al) a r → stringLoop al X ps r tags b = .ok out →
        Tagged (TagString al) (a ++ (shownSymbols al (inputsOf ps)).flatten) out
  | [], a, r, tags, b, out, _, h, e => by
    injection e with e
    rw [← e]
    show Tagged _ (a ++ []) r
    rw [List.append_nil]; exact h
  | p :: ps, a, r, tags, b, out, hq, h, e => by
    have hq' : ∀ p ∈ ps, Shows al p := fun p hp => hq p (List.mem_cons_of_mem _ hp)
    have hno : al.isPrintable noSymbol = false := by
      unfold PmAlphabet.isPrintable
      rw [List.getElem?_eq_none (by rw [hm.size]; exact hsize)]
      rfl
    rw [shown_inputs hm.epsilon]
    have hun : al.isPrintable p.2 = false → (if al.isPrintable p.1 = true then (al.base.table[p.1]?).getD [] else []) = [] := by
      intro h2
      rcases hq p (List.mem_cons_self ..) with ⟨h1, _⟩ | ⟨h1, _⟩
      · rw [h1, h2, if_neg (by simp)]
      · rw [h1, hm.epsilon, if_neg (by simp)]
    have hend : ∀ {x}, x = al.entry ∨ x = al.exit → al.isPrintable x = false := by
      intro x hx
      rcases hm.ends x hx with rfl | ⟨_, h⟩
      · exact hno
      · exact h
    rw [stringLoop] at e
    dsimp only at e
    split at e
    · rename_i h2
      rw [hun (hend (.inl h2)), List.nil_append]
      exact stringLoop_ok hm hsize hx hd ps a r _ _ out hq' h e
    split at e
    · rename_i h2
      rw [hun (hend (.inr h2)), List.nil_append]
      exact stringLoop_ok hm hsize hx hd ps a r _ _ out hq' h e
    split at e
    · rename_i ht
      rw [hun (hm.tags _ ht).2, List.nil_append]
      split at e
      · cases e
      rw [hd, if_neg (by simp)] at e
      split at e
      · refine stringLoop_ok hm hsize hx hd ps a _ _ _ out hq' ?_ e
        unfold PmAlphabet.isEndTag at ht
        rw [List.any_eq_true] at ht
        obtain ⟨x, hx1, hx2⟩ := ht
        have hx2 : x.1 = p.2 := by simpa using hx2
        have h1 := Tagged.put' (tags := TagString al) (t := al.startTag p.2) ⟨x, hx1, .inl (by rw [hx2])⟩ (tags.headD 0) h
        have h2 := Tagged.put (tags := TagString al) (t := al.endTag p.2) (v := []) ⟨x, hx1, .inr (by rw [hx2])⟩ (by rw [List.append_nil]; exact h1)
        rw [List.append_nil] at h2
        exact h2
      · exact stringLoop_ok hm hsize hx hd ps a r _ _ out hq' h e
    split at e
    · rename_i hpr
      obtain ⟨_, hpr⟩ := hpr
      rcases hq p (List.mem_cons_self ..) with ⟨h1, _⟩ | ⟨_, h1⟩
      · rw [bind_ok] at e
        obtain ⟨x, e1, e⟩ := e
        have hx' : (al.base.table[p.2]?).getD [] = x := by
          unfold PmAlphabet.string Alphabet.string at e1
          have : p.2 ≠ 0 := by
            intro h0
            rw [h0, hm.epsilon] at hpr
            cases hpr
          rw [if_neg this] at e1
          cases ht : al.base.table[p.2]? with
          | none => rw [ht] at e1; cases e1
          | some y => rw [ht] at e1; injection e1
        rw [h1, hpr, if_pos rfl, hx', ← List.append_assoc]
        exact stringLoop_ok hm hsize hx hd ps (a ++ x) (r ++ x) _ _ out hq' h.more e
      · rw [h1] at hpr
        cases hpr
    · rename_i hpr
      have h2 : al.isPrintable p.2 = false := by
        cases hp : al.isPrintable p.2 with
        | false => rfl
        | true => exact absurd ⟨.inl hx, hp⟩ hpr
      rw [hun h2, List.nil_append]
      exact stringLoop_ok hm hsize hx hd ps a r _ _ out hq' h e

/-- C63: if the transducers only mark what they read, then `match` gives the text back with start tags and end tags put in. -/
theorem C63_match_partial {order : List Location → List Location} {X : Container} {maxWeight : Option Int} {fuel : Nat} {m m' : Memory}
    {text out : Bytes} {s : State} (h : Fit X m text) (hmark : Marker m.al X.nets) (hx : X.extract = false) (hd : X.delete = false)
    (e : matchText order X maxWeight fuel m text s = .ok (out, m')) :
    Tagged (TagString m.al) text out ∧ Kept X m m' text := by
  unfold matchText processText at e
  rw [bind_ok] at e
  obtain ⟨r, e, e'⟩ := e
  rw [bind_ok] at e
  obtain ⟨q, e1, e⟩ := e
  rw [bind_ok] at e
  obtain ⟨p, e2, e⟩ := e
  injection e with e
  rw [bind_ok] at e'
  obtain ⟨out', e3, e'⟩ := e'
  injection e' with e'
  injection e' with e4 e5
  obtain ⟨hc, hready⟩ := cut_of h e1
  have hf := hc.ext.faithful h.faithful
  have hroom := hc.room
  have hrule := rule_shows (C := ⟨q.2.1, X.nets, X.weightOf, m.al.edge ++ q.1 ++ m.al.edge, maxWeight, false, []⟩) hc.ext h.marks.size hf
    hmark (fun k hk => ⟨(hc.symbols k hk).1, by have := (hc.symbols k hk).2.1; omega⟩)
  obtain ⟨g1, g2⟩ := process_match hrule rfl e2
  rw [← e] at e3 e5
  have := stringLoop_ok hc.marks hroom hx hd p.1 [] [] [] false out' g2 .nil e3
  rw [g1, List.nil_append, hc.shown] at this
  rw [← e4, ← e5]
  refine ⟨?_, hready, hc.marks, hf, hc.ext.specials.2.2.2.1, fun t => hc.ext.plain h.marks.size, hc.size⟩
  have ht : TagString q.2.1 = TagString m.al := by
    funext t
    unfold TagString PmAlphabet.startTag PmAlphabet.endTag
    rw [hc.ext.tags]
  rw [← ht]
  exact this

end Hfst.Pmatch
