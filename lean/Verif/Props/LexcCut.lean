import Verif.Spec.Lexc

/-!
# C71: cutting texts that have the compiler's own symbols around them
-/
namespace Hfst.Lexc
open Hfst.Basic
open Hfst.Tok (Bytes Byte Cut IsLongest Ok charSize Reg regSyms regSkips Tokenizer Trie)

/-! ## From the description of a cut to the tokenizer -/

theorem loop_of_cut (t : Tokenizer) (syms : List Bytes) (hw : t.trie.Wf)
    (hm : ∀ q, t.trie.mem q = true ↔ q ∈ syms) (hskip : t.skip = []) (grapheme : Bytes → Nat) (split : Bool)
    {s : Bytes} {pieces : List Bytes} (h : Cut syms (charSize grapheme split) s pieces) (hs : Ok s) :
    t.loop grapheme split s = .tokens pieces := by
  have noskip : ∀ p : Bytes, p ≠ [] → t.isSkip p = false := by
    intro p hp
    cases p with
    | nil => exact absurd rfl hp
    | cons b p => simp [Tokenizer.isSkip, hskip]
  -- one step
  have step : ∀ (p r : Bytes) (ps : List Bytes), p ≠ [] → t.nextSize grapheme split (p ++ r) = some p.length →
      t.loop grapheme split r = .tokens ps → t.loop grapheme split (p ++ r) = .tokens (p :: ps) := by
    intro p r ps hp hn hr
    have hlen : p.length ≠ 0 := by simpa using hp
    obtain ⟨n, hn'⟩ := Nat.exists_eq_succ_of_ne_zero hlen
    rw [Tokenizer.loop, dif_neg (by simp [hp]), hn]
    simp only [hn', Nat.succ_eq_add_one]
    rw [if_neg (by simp; omega), ← Nat.succ_eq_add_one, ← hn', List.drop_left, hr, List.take_left]
    simp [noskip p hp]
  induction h with
  | nil => rw [Tokenizer.loop]; rfl
  | @sym p r pieces hp hl _ ih =>
    refine step p r pieces hp ?_ (ih (fun b hb => hs b (by simp [hb])))
    obtain ⟨x, hx, h1, h2⟩ := Trie.find_spec (p ++ r) t.trie hw hs
    cases p with
    | nil => exact absurd rfl hp
    | cons b p =>
      simp only [List.cons_append] at hx ⊢
      unfold Tokenizer.nextSize
      simp only [hx]
      cases x with
      | none =>
        have := h1 rfl (b :: p) (by simp)
        rw [(hm _).mpr hl.1] at this
        cases this
      | some n =>
        obtain ⟨q, hq, hqn, hqm, hq'⟩ := h2 n rfl
        have e1 := hq' (b :: p) (by simp) ((hm _).mpr hl.1)
        have e2 := hl.2.2 q ((hm q).mp hqm) hq
        simp only [Option.some.injEq]
        omega
  | @char p r pieces hp hn hlen _ ih =>
    refine step p r pieces hp ?_ (ih (fun b hb => hs b (by simp [hb])))
    obtain ⟨x, hx, h1, h2⟩ := Trie.find_spec (p ++ r) t.trie hw hs
    cases p with
    | nil => exact absurd rfl hp
    | cons b p =>
      simp only [List.cons_append] at hx hlen ⊢
      unfold Tokenizer.nextSize
      simp only [hx]
      cases x with
      | none =>
        simp only [charSize] at hlen
        simp only [Option.some.injEq]
        exact hlen.symm
      | some n =>
        obtain ⟨q, hq, hqn, hqm, hq'⟩ := h2 n rfl
        exact absurd hq (hn q ((hm q).mp hqm))

/-- The registered symbols without the empty one (registering it has no effect). -/
def nonempty (regs : List Bytes) : List Bytes := regs.filter fun x => x ≠ []

theorem mem_nonempty {regs : List Bytes} {x : Bytes} : x ∈ nonempty regs ↔ x ∈ regs ∧ x ≠ [] := by
  simp [nonempty]

theorem tokenize_of_cut (cfg : Config) (regs : List Bytes) (split : Bool) (hr : ∀ r ∈ regs, Ok r) {s : Bytes} (hs : Ok s)
    {pieces : List Bytes} (h : Cut (nonempty regs) (charSize cfg.grapheme split) s pieces) :
    tokenize cfg regs split s = .ok pieces := by
  obtain ⟨t, h1, h2, h3, h4⟩ := Tok.register_spec (regs.map fun r => (⟨false, r⟩ : Reg)) Tokenizer.empty Tok.Trie.empty_wf
    (by simp only [List.mem_map]; rintro _ ⟨r, hr', rfl⟩; exact hr r hr')
  have hsyms : regSyms (regs.map fun r => (⟨false, r⟩ : Reg)) = nonempty regs := by
    simp only [regSyms, nonempty, List.map_map]
    congr 1
    exact List.map_id _
  have hskip : t.skip = [] := by
    rw [List.eq_nil_iff_forall_not_mem]
    intro s hs
    rw [h4] at hs
    simp [Tokenizer.empty, regSkips] at hs
  unfold tokenize
  rw [h1]
  simp only [Tokenizer.tokenize, Tok.cStr_ok hs]
  rw [loop_of_cut t (nonempty regs) h2 ?_ hskip cfg.grapheme split h hs]
  intro q
  rw [h3, hsyms]
  simp [Tokenizer.empty, Tok.Trie.empty_mem]

/-! ## Cuts -/

/-- Two sets of symbols that agree on the parts of a text cut it in the same way. -/
theorem cut_congr {syms syms' : List Bytes} {cs : Bytes → Nat} {s : Bytes} {ps : List Bytes}
    (h : Cut syms cs s ps) (hq : ∀ r q, r <:+ s → q <+: r → q ∈ syms ∨ q ∈ syms' → (q ∈ syms ↔ q ∈ syms')) :
    Cut syms' cs s ps := by
  induction h with
  | nil => exact .nil
  | @sym p r ps hp hl _ ih =>
    have hsub : ∀ x, x <:+ r → x <:+ p ++ r := fun x hx => hx.trans (List.suffix_append p r)
    refine .sym hp ⟨?_, hl.2.1, ?_⟩ (ih fun x q hx => hq x q (hsub x hx))
    · exact (hq _ p (List.suffix_refl _) hl.2.1 (.inl hl.1)).mp hl.1
    · intro q h1 h2
      exact hl.2.2 q ((hq _ q (List.suffix_refl _) h2 (.inr h1)).mpr h1) h2
  | @char p r ps hp hn hlen _ ih =>
    have hsub : ∀ x, x <:+ r → x <:+ p ++ r := fun x hx => hx.trans (List.suffix_append p r)
    refine .char hp ?_ hlen (ih fun x q hx => hq x q (hsub x hx))
    intro q h1 h2
    exact hn q ((hq _ q (List.suffix_refl _) h2 (.inr h1)).mpr h1) h2

theorem prefix_of_append_le {q r c : Bytes} (h : q <+: r ++ c) (hl : q.length ≤ r.length) : q <+: r := by
  obtain ⟨x, hx⟩ := h
  have := congrArg (List.take q.length) hx
  rw [List.take_left, List.take_append_of_le_length hl] at this
  rw [this]
  exact List.take_prefix _ _

/-- A cut of `s` followed by a cut of `c`, when no symbol and no character crosses the border. -/
theorem cut_append {syms : List Bytes} {cs : Bytes → Nat} {s c : Bytes} {ps ps' : List Bytes}
    (h : Cut syms cs s ps) (h' : Cut syms cs c ps')
    (hq : ∀ r, r <:+ s → r ≠ [] → ∀ q ∈ syms, q <+: r ++ c → q.length ≤ r.length)
    (hc : ∀ r, r <:+ s → r ≠ [] → cs (r ++ c) = cs r) : Cut syms cs (s ++ c) (ps ++ ps') := by
  induction h with
  | nil => exact h'
  | @sym p r ps hp hl _ ih =>
    have hsub : ∀ x, x <:+ r → x <:+ p ++ r := fun x hx => hx.trans (List.suffix_append p r)
    have ne : p ++ r ≠ [] := by simp [hp]
    rw [List.append_assoc, List.cons_append]
    refine .sym hp ⟨hl.1, List.prefix_append _ _, ?_⟩ (ih (fun x hx => hq x (hsub x hx)) (fun x hx => hc x (hsub x hx)))
    intro q h1 h2
    rw [← List.append_assoc] at h2
    have := hq _ (List.suffix_refl _) ne q h1 h2
    exact hl.2.2 q h1 (prefix_of_append_le h2 this)
  | @char p r ps hp hn hlen _ ih =>
    have hsub : ∀ x, x <:+ r → x <:+ p ++ r := fun x hx => hx.trans (List.suffix_append p r)
    have ne : p ++ r ≠ [] := by simp [hp]
    rw [List.append_assoc, List.cons_append]
    refine .char hp ?_ ?_ (ih (fun x hx => hq x (hsub x hx)) (fun x hx => hc x (hsub x hx)))
    · intro q h1 h2
      rw [← List.append_assoc] at h2
      have := hq _ (List.suffix_refl _) ne q h1 h2
      exact hn q h1 (prefix_of_append_le h2 this)
    · rw [← List.append_assoc, hc _ (List.suffix_refl _) ne, hlen]

/-! ## The compiler's own symbols -/

/-- Symbols of the compiler: joiners of lexicons and keys of regular expressions (one dollar sign at each end), and flags. -/
def Internal (q : Bytes) : Prop :=
  (∃ v, q = 36 :: 80 :: v ∨ q = 36 :: 82 :: v) ∨ ∃ v, (36 : Byte) ∉ v ∧ q = 36 :: (v ++ [36])

/-- Joiners and keys. -/
def Atom (x : Bytes) : Prop := ∃ u, (36 : Byte) ∉ u ∧ x = 36 :: 95 :: (u ++ [36])

theorem Atom.internal {x : Bytes} (h : Atom x) : Internal x := by
  obtain ⟨u, hu, rfl⟩ := h
  exact .inr ⟨95 :: u, by simp [hu], by simp⟩

theorem Atom.ne_nil {x : Bytes} (h : Atom x) : x ≠ [] := by
  obtain ⟨u, _, rfl⟩ := h; simp

theorem Internal.head {q : Bytes} (h : Internal q) : ∃ v, q = 36 :: v := by
  rcases h with ⟨v, rfl | rfl⟩ | ⟨v, _, rfl⟩ <;> exact ⟨_, rfl⟩

/-- The registered symbols are plain ones and the compiler's own. -/
def RegsOk (regs : List Bytes) : Prop := ∀ x ∈ regs, Ok x ∧ (Plain x ∨ Internal x)

theorem dollar_prefix {u v r : Bytes} (hu : (36 : Byte) ∉ u) (hv : (36 : Byte) ∉ v) (h : v ++ [36] <+: u ++ 36 :: r) : v = u := by
  induction v generalizing u with
  | nil =>
    cases u with
    | nil => rfl
    | cons a u =>
      simp at h
      exact absurd h.symm (by simp at hu; exact fun e => hu.1 e.symm)
  | cons b v ih =>
    cases u with
    | nil =>
      simp at h hv
      exact absurd h.1.symm hv.1
    | cons a u =>
      simp only [List.cons_append, List.cons_prefix_cons] at h
      rw [h.1, ih (by simp at hu; exact hu.2) (by simp at hv; exact hv.2) h.2]

theorem atom_longest {regs : List Bytes} (hr : RegsOk regs) {x : Bytes} (hx : Atom x) (hm : x ∈ regs) (r : Bytes) :
    IsLongest (nonempty regs) (x ++ r) x := by
  refine ⟨mem_nonempty.mpr ⟨hm, hx.ne_nil⟩, List.prefix_append _ _, ?_⟩
  intro q hq hp
  obtain ⟨hq, hne⟩ := mem_nonempty.mp hq
  obtain ⟨u, hu, rfl⟩ := hx
  rcases (hr q hq).2 with h | ⟨v, rfl | rfl⟩ | ⟨v, hv, rfl⟩
  · cases q with
    | nil => exact absurd rfl hne
    | cons b q =>
      simp only [List.cons_append, List.cons_prefix_cons] at hp
      exact absurd hp.1 (h b (by simp)).1
  · simp at hp
  · simp at hp
  · have h1 : v ++ [36] <+: (95 :: u) ++ 36 :: r := by
      simp only [List.cons_append, List.cons_prefix_cons, true_and, List.append_assoc, List.nil_append] at hp ⊢
      exact hp
    have := dollar_prefix (u := 95 :: u) (by simp [hu]) hv h1
    subst this
    simp

theorem Plain.ok {s : Bytes} (h : Plain s) : Ok s := fun b hb => (h b hb).2

theorem Plain.append {s t : Bytes} (hs : Plain s) (ht : Plain t) : Plain (s ++ t) := by
  intro b hb
  rcases List.mem_append.mp hb with h | h
  · exact hs b h
  · exact ht b h

theorem ok_append {s t : Bytes} (hs : Ok s) (ht : Ok t) : Ok (s ++ t) := by
  intro b hb
  rcases List.mem_append.mp hb with h | h
  · exact hs b h
  · exact ht b h

theorem plain_lit_append {a b : Bytes} (ha : Ok a) (hb : Ok b) (n : Bytes) (hn : Ok n) : Ok (a ++ n ++ b) :=
  ok_append (ok_append ha hn) hb

theorem ok_of_all {b : Bytes} (h : b.all (fun x => decide (x ≠ 0) && decide (x ≠ 255)) = true) : Ok b := by
  intro x hx
  have := List.all_eq_true.mp h x hx
  simpa using this

theorem joiner_ok {n : Bytes} (hn : NameOk n) : Ok (joiner n) :=
  plain_lit_append (ok_of_all (by decide)) (ok_of_all (by decide)) n hn.1.ok

theorem flagJoiner_ok {n : Bytes} (hn : Ok n) (b : Bool) : Ok (flagJoiner n b) := by
  cases b <;> exact plain_lit_append (ok_of_all (by decide)) (ok_of_all (by decide)) n hn

theorem regKey_ok {l k : Bytes} (hl : NameOk l) (hk : NameOk k) : Ok (regKey l k) :=
  plain_lit_append (ok_of_all (by decide)) (ok_of_all (by decide)) _
    (ok_append (ok_append hl.1.ok (ok_of_all (by decide))) hk.1.ok)

theorem nodollar {n : Bytes} (h : NameOk n) : (36 : Byte) ∉ n := fun hm => (h.1 36 hm).1 rfl

theorem joiner_atom {n : Bytes} (hn : NameOk n) : Atom (joiner n) := by
  refine ⟨(lit "$_LEXC_JOINER.").drop 2 ++ n ++ [95], ?_, ?_⟩
  · simp only [List.mem_append, not_or]
    exact ⟨⟨by decide, nodollar hn⟩, by decide⟩
  · have e1 : lit "$_LEXC_JOINER." = 36 :: 95 :: (lit "$_LEXC_JOINER.").drop 2 := by decide
    have e2 : lit "_$" = [95, 36] := by decide
    unfold joiner
    rw [e1, e2]
    simp

theorem regKey_atom {l k : Bytes} (hl : NameOk l) (hk : NameOk k) : Atom (regKey l k) := by
  refine ⟨(lit "$_REG.").drop 2 ++ (l ++ lit "_" ++ k) ++ [95], ?_, ?_⟩
  · simp only [List.mem_append, not_or]
    exact ⟨⟨by decide, ⟨nodollar hl, by decide⟩, nodollar hk⟩, by decide⟩
  · have e1 : lit "$_REG." = 36 :: 95 :: (lit "$_REG.").drop 2 := by decide
    have e2 : lit "_$" = [95, 36] := by decide
    unfold regKey
    rw [e1, e2]
    simp

theorem flagJoiner_internal (n : Bytes) (b : Bool) : Internal (flagJoiner n b) := by
  cases b
  · have e1 : lit "$P.LEXNAME." = 36 :: 80 :: (lit "$P.LEXNAME.").drop 2 := by decide
    refine .inl ⟨(lit "$P.LEXNAME.").drop 2 ++ n ++ lit "$", .inl ?_⟩
    simp only [flagJoiner, Bool.false_eq_true, if_false]
    rw [e1]; simp
  · have e1 : lit "$R.LEXNAME." = 36 :: 82 :: (lit "$R.LEXNAME.").drop 2 := by decide
    refine .inl ⟨(lit "$R.LEXNAME.").drop 2 ++ n ++ lit "$", .inr ?_⟩
    simp only [flagJoiner, if_true]
    rw [e1]; simp

theorem append_left_cancel_lit {a n m b : Bytes} (h : a ++ n ++ b = a ++ m ++ b) : n = m :=
  List.append_cancel_left (List.append_cancel_right h)

theorem joiner_inj {n m : Bytes} (h : joiner n = joiner m) : n = m := append_left_cancel_lit h

theorem joiner_ne_regKey (n l k : Bytes) : joiner n ≠ regKey l k := by
  intro h
  have e1 : lit "$_LEXC_JOINER." = 36 :: 95 :: 76 :: (lit "$_LEXC_JOINER.").drop 3 := by decide
  have e2 : lit "$_REG." = 36 :: 95 :: 82 :: (lit "$_REG.").drop 3 := by decide
  unfold joiner regKey at h
  rw [e1, e2] at h
  simp at h

/-! ## The texts of entries -/

/-- The plain symbols among the registered ones are exactly `known` and the base symbols. -/
def Agree (regs known : List Bytes) : Prop := ∀ q, Plain q → q ≠ [] → (q ∈ regs ↔ q ∈ known ++ baseSymbols)

theorem cut_plain {regs known : List Bytes} {cs : Bytes → Nat} (hr : RegsOk regs) (ha : Agree regs known)
    (hk : ∀ q ∈ known, q ≠ []) {s : Bytes} (hs : Plain s) {ps : List Bytes}
    (h : Cut (known ++ baseSymbols) cs s ps) : Cut (nonempty regs) cs s ps := by
  refine cut_congr h ?_
  intro r q hrs hqr _
  have hplain : Plain q := by
    intro b hb
    have : b ∈ r := hqr.subset hb
    exact hs b (hrs.subset this)
  rw [mem_nonempty]
  constructor
  · intro hm
    have hne : q ≠ [] := by
      rcases List.mem_append.mp hm with h | h
      · exact hk q h
      · rintro rfl; revert h; decide
    exact ⟨(ha q hplain hne).mpr hm, hne⟩
  · rintro ⟨h1, h2⟩; exact (ha q hplain h2).mp h1

/-- Symbols do not reach from a plain text into a dollar sign. -/
theorem dollar_border {regs : List Bytes} (hr : RegsOk regs) {r c : Bytes} (hs : Plain r) (hne : r ≠ []) {q : Bytes}
    (hq : q ∈ nonempty regs) (hp : q <+: r ++ 36 :: c) : q.length ≤ r.length := by
  obtain ⟨hq, hqne⟩ := mem_nonempty.mp hq
  rcases Nat.lt_or_ge r.length q.length with hlt | hge
  · exfalso
    have hmem : (36 : Byte) ∈ q := by
      obtain ⟨x, hx⟩ := hp
      have h1 : q[r.length]? = (r ++ 36 :: c)[r.length]? := by
        rw [← hx, List.getElem?_append_left hlt]
      rw [List.getElem?_append_right (Nat.le_refl _)] at h1
      simp at h1
      exact List.mem_of_getElem? h1
    cases r with
    | nil => exact hne rfl
    | cons b r =>
      have hb := (hs b (by simp)).1
      rcases (hr q hq).2 with h | h
      · exact (h 36 hmem).1 rfl
      · obtain ⟨v, rfl⟩ := h.head
        simp only [List.cons_append, List.cons_prefix_cons] at hp
        exact hb hp.1.symm
  · exact hge

theorem plain_suffix {r s : Bytes} (hs : Plain s) (h : r <:+ s) : Plain r := fun b hb => hs b (h.subset hb)

theorem cut_atom {regs : List Bytes} {cs : Bytes → Nat} (hr : RegsOk regs) {x : Bytes} (hx : Atom x) (hm : x ∈ regs)
    {r : Bytes} {ps : List Bytes} (h : Cut (nonempty regs) cs r ps) : Cut (nonempty regs) cs (x ++ r) (x :: ps) :=
  .sym hx.ne_nil (atom_longest hr hx hm r) h

theorem cut_text {cfg : Config} {regs known : List Bytes} (hr : RegsOk regs) (ha : Agree regs known)
    (hk : ∀ q ∈ known, q ≠ []) {s : Bytes} (hs : TextOk cfg s) {ps : List Bytes}
    (h : Cut (known ++ baseSymbols) (charSize cfg.grapheme cfg.split) s ps) {x : Bytes} (hx : Atom x) (hm : x ∈ regs) :
    Cut (nonempty regs) (charSize cfg.grapheme cfg.split) (s ++ x) (ps ++ [x]) := by
  have hc : Cut (nonempty regs) (charSize cfg.grapheme cfg.split) x [x] := by
    have := cut_atom (cs := charSize cfg.grapheme cfg.split) hr hx hm .nil
    simpa using this
  obtain ⟨v, hv⟩ := hx.internal.head
  refine cut_append (cut_plain hr ha hk hs.plain h) hc ?_ ?_
  · intro r h1 h2 q hq hp
    rw [hv] at hp
    exact dollar_border hr (plain_suffix hs.plain h1) h2 hq hp
  · intro r h1 h2
    rw [hv]
    exact hs.border r v h1 h2

/-- The tokens of the text of an entry between two joiners. -/
theorem tokens_string {cfg : Config} {regs known : List Bytes} (hr : RegsOk regs) (ha : Agree regs known)
    (hk : ∀ q ∈ known, q ≠ []) {s : Bytes} (hs : TextOk cfg s) {ps : List Bytes}
    (h : Cut (known ++ baseSymbols) (charSize cfg.grapheme cfg.split) s ps) {x y : Bytes} (hx : Atom x) (hy : Atom y)
    (hxo : Ok x) (hyo : Ok y) (hxm : x ∈ regs) (hym : y ∈ regs) :
    tokenize cfg regs cfg.split (x ++ s ++ y) = .ok (x :: (ps ++ [y])) := by
  refine tokenize_of_cut cfg regs _ (fun r h => (hr r h).1) (ok_append (ok_append hxo hs.plain.ok) hyo) ?_
  rw [List.append_assoc]
  exact cut_atom hr hx hxm (cut_text hr ha hk hs h hy hym)

/-- The tokens of a text on its own. -/
theorem tokens_plain {cfg : Config} {regs known : List Bytes} (hr : RegsOk regs) (ha : Agree regs known)
    (hk : ∀ q ∈ known, q ≠ []) {s : Bytes} (hs : Plain s) {ps : List Bytes}
    (h : Cut (known ++ baseSymbols) (charSize cfg.grapheme cfg.split) s ps) :
    tokenize cfg regs cfg.split s = .ok ps :=
  tokenize_of_cut cfg regs _ (fun r h => (hr r h).1) hs.ok (cut_plain hr ha hk hs h)

/-- Nothing but the compiler's own symbols. -/
theorem tokens_atoms {cfg : Config} {regs : List Bytes} (hr : RegsOk regs) (split : Bool) (xs : List Bytes)
    (hx : ∀ x ∈ xs, Atom x ∧ Ok x ∧ x ∈ regs) : tokenize cfg regs split xs.flatten = .ok xs := by
  refine tokenize_of_cut cfg regs _ (fun r h => (hr r h).1) ?_ ?_
  · intro b hb
    obtain ⟨x, h1, h2⟩ := List.mem_flatten.mp hb
    exact (hx x h1).2.1 b h2
  · induction xs with
    | nil => exact .nil
    | cons x xs ih =>
      rw [List.flatten_cons]
      exact cut_atom hr (hx x (by simp)).1 (hx x (by simp)).2.2 (ih fun y hy => hx y (by simp [hy]))

/-- A registered symbol on its own. -/
theorem tokens_single {cfg : Config} {regs : List Bytes} (hr : ∀ r ∈ regs, Ok r) (split : Bool) {x : Bytes} (hne : x ≠ [])
    (hm : x ∈ regs) : tokenize cfg regs split x = .ok [x] := by
  refine tokenize_of_cut cfg regs _ hr (hr x hm) ?_
  have := Cut.sym (charSize := charSize cfg.grapheme split) hne (r := [])
    (⟨mem_nonempty.mpr ⟨hm, hne⟩, by simp, fun q _ hq => by simpa using hq.length_le⟩ : IsLongest (nonempty regs) (x ++ []) x) .nil
  simpa using this

/-! ## Padding -/

/-- `@@ANOTHER_EPSILON@@`. -/
def another : Bytes := lit "@@ANOTHER_EPSILON@@"

theorem another_longest {regs known : List Bytes} (hr : RegsOk regs) (ha : Agree regs known)
    (hk : ∀ q ∈ known, another <+: q → q = another) (c : Bytes) : IsLongest (nonempty regs) (another ++ c) another := by
  have hplain : Plain another := by
    intro b hb
    have := List.all_eq_true.mp (show another.all (fun b => decide (b ≠ 36) && decide (b ≠ 0) && decide (b ≠ 255)) = true by
      decide) b hb
    simpa [and_assoc] using this
  have hne : another ≠ [] := by decide
  refine ⟨mem_nonempty.mpr ⟨(ha _ hplain hne).mpr ?_, hne⟩, List.prefix_append _ _, ?_⟩
  · exact List.mem_append.mpr (.inr (by decide))
  · intro q hq hp
    obtain ⟨hq, hqne⟩ := mem_nonempty.mp hq
    rcases Nat.lt_or_ge another.length q.length with hlt | hge
    · exfalso
      have hpre : another <+: q := by
        obtain ⟨x, hx⟩ := hp
        have := congrArg (List.take another.length) hx
        rw [List.take_left, List.take_append_of_le_length (Nat.le_of_lt hlt)] at this
        rw [← this]
        exact List.take_prefix _ _
      rcases (hr q hq).2 with h | h
      · have hm := (ha q h hqne).mp hq
        rcases List.mem_append.mp hm with h1 | h1
        · rw [hk q h1 hpre] at hlt; omega
        · have : ∀ b ∈ baseSymbols, another <+: b → b = another := by decide
          rw [this q h1 hpre] at hlt; omega
      · obtain ⟨v, rfl⟩ := h.head
        have e : another = 64 :: another.drop 1 := by decide
        rw [e, List.cons_prefix_cons] at hpre
        exact absurd hpre.1 (by decide)
    · exact hge

theorem cut_padding {cfg : Config} {regs known : List Bytes} (hr : RegsOk regs) (ha : Agree regs known)
    (hk : ∀ q ∈ known, another <+: q → q = another) {x : Bytes} (hx : Atom x) (hm : x ∈ regs) (n : Nat) :
    Cut (nonempty regs) (charSize cfg.grapheme cfg.split) (padding n ++ x) (List.replicate n another ++ [x]) := by
  induction n with
  | zero =>
    have := cut_atom (cs := charSize cfg.grapheme cfg.split) hr hx hm .nil
    simpa [padding] using this
  | succ n ih =>
    have e : padding (n + 1) ++ x = another ++ (padding n ++ x) := by
      simp [padding, List.replicate_succ, another]
    rw [e, List.replicate_succ, List.cons_append]
    exact .sym (by decide) (another_longest hr ha hk _) ih

/-- The tokens of one side of a pair, filled up and between two joiners. -/
theorem tokens_padded {cfg : Config} {regs known : List Bytes} (hr : RegsOk regs) (ha : Agree regs known)
    (hk : ∀ q ∈ known, q ≠ [] ∧ (another <+: q → q = another)) {s : Bytes} (hs : TextOk cfg s)
    (hap : Apart cfg (known ++ baseSymbols) s) {ps : List Bytes}
    (h : Cut (known ++ baseSymbols) (charSize cfg.grapheme cfg.split) s ps) {x y : Bytes} (hx : Atom x) (hy : Atom y)
    (hxo : Ok x) (hyo : Ok y) (hxm : x ∈ regs) (hym : y ∈ regs) (n : Nat) :
    tokenize cfg regs cfg.split (x ++ (s ++ padding n) ++ y) = .ok (x :: (ps ++ List.replicate n another ++ [y])) := by
  cases n with
  | zero =>
    have := tokens_string hr ha (fun q hq => (hk q hq).1) hs h hx hy hxo hyo hxm hym
    simpa [padding] using this
  | succ n =>
    have hpad : Ok (padding (n + 1)) := by
      intro b hb
      simp only [padding, List.mem_flatten, List.mem_replicate] at hb
      obtain ⟨_, ⟨_, rfl⟩, hb⟩ := hb
      exact ok_of_all (b := lit "@@ANOTHER_EPSILON@@") (by decide) b hb
    refine tokenize_of_cut cfg regs _ (fun r h => (hr r h).1)
      (ok_append (ok_append hxo (ok_append hs.plain.ok hpad)) hyo) ?_
    rw [List.append_assoc, List.append_assoc]
    refine cut_atom hr hx hxm ?_
    rw [List.append_assoc]
    have e : padding (n + 1) ++ y = another ++ (padding n ++ y) := by
      simp [padding, List.replicate_succ, another]
    refine cut_append (cut_plain hr ha (fun q hq => (hk q hq).1) hs.plain h)
      (cut_padding hr ha (fun q hq => (hk q hq).2) hy hym (n + 1)) ?_ ?_
    · intro r h1 h2 q hq hp
      rw [e] at hp
      obtain ⟨hq, hqne⟩ := mem_nonempty.mp hq
      rcases (hr q hq).2 with h | h
      · exact hap.symbols r _ h1 h2 q ((ha q h hqne).mp hq) hp
      · obtain ⟨v, rfl⟩ := h.head
        cases r with
        | nil => exact absurd rfl h2
        | cons b r =>
          simp only [List.cons_append, List.cons_prefix_cons] at hp
          exact absurd hp.1.symm ((plain_suffix hs.plain h1) b (by simp)).1
    · intro r h1 h2
      rw [e]
      exact hap.chars r _ h1 h2

end Hfst.Lexc
