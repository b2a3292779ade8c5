import Verif.Model.OlFile
import Mathlib.Tactic.SplitIfs
import Mathlib.Tactic.ByContra

/-!
# C34, C35, C36: the optimized-lookup file
-/
namespace Hfst.Ol
open Hfst.Basic (Outcome)

/-! ## Bytes and streams -/

/-- A stream with nothing wrong and these bytes to read. -/
def fresh (bs : Bytes) : In := ⟨bs, false, false⟩

def Good (s : In) : Prop := s.eof = false ∧ s.fail = false

theorem Good.eq {s : In} (h : Good s) : s = fresh s.rest := by
  obtain ⟨r, e, f⟩ := s
  obtain ⟨h1, h2⟩ := h
  simp only at h1 h2
  subst h1 h2
  rfl

theorem length_leBytes : ∀ k n, (leBytes k n).length = k
  | 0, _ => rfl
  | k + 1, n => by rw [leBytes, List.length_cons, length_leBytes]

theorem leNat_leBytes : ∀ k n, n < 256 ^ k → leNat (leBytes k n) = n
  | 0, n, h => by simp at h; subst h; rfl
  | k + 1, n, h => by
    rw [leBytes, leNat, leNat_leBytes k (n / 256) (by rw [Nat.div_lt_iff_lt_mul (by omega)]; rwa [Nat.pow_succ] at h)]
    have : (UInt8.ofNat (n % 256)).toNat = n % 256 := by
      rw [UInt8.toNat_ofNat']; omega
    rw [this]; omega

theorem leNat_lt : ∀ bs : Bytes, leNat bs < 256 ^ bs.length
  | [] => by simp [leNat]
  | b :: bs => by
    have h1 := leNat_lt bs
    have h2 := b.toNat_lt
    rw [leNat, List.length_cons, Nat.pow_succ]
    omega

theorem leBytes_leNat : ∀ bs : Bytes, leBytes bs.length (leNat bs) = bs
  | [] => rfl
  | b :: bs => by
    have h2 := b.toNat_lt
    rw [List.length_cons, leBytes, leNat]
    have e1 : (b.toNat + 256 * leNat bs) % 256 = b.toNat := by omega
    have e2 : (b.toNat + 256 * leNat bs) / 256 = leNat bs := by omega
    rw [e1, e2, leBytes_leNat bs, UInt8.ofNat_toNat]

theorem read_fresh {k : Nat} {a x : Bytes} (h : a.length = k) : (fresh (a ++ x)).read k = (some a, fresh x) := by
  subst h
  unfold In.read fresh
  simp

theorem read_good {k : Nat} {s s' : In} {o : Option Bytes} (h : s.read k = (o, s')) (hf : s'.fail = false) :
    Good s ∧ Good s' ∧ ∃ a, o = some a ∧ a.length = k ∧ s.rest = a ++ s'.rest := by
  unfold In.read at h
  split_ifs at h with h1 h2
  · cases h; cases hf
  · cases h; cases hf
  · cases h
    have hg : Good s := by
      constructor
      · cases e : s.eof with
        | false => rfl
        | true => exact absurd (.inl e) h1
      · cases e : s.fail with
        | false => rfl
        | true => exact absurd (.inr e) h1
    exact ⟨hg, hg, _, rfl, by simp; omega, by simp⟩

/-- A reading function `f` for the values written by `w`: it reads back what was written, and whatever it reads, with the
stream still good afterwards, was written by `w`. -/
structure Codec {α : Type} (f : In → Outcome (α × In)) (w : α → Bytes) (fits : α → Prop) : Prop where
  dec : ∀ s a s', f s = .ok (a, s') → Good s' → Good s ∧ fits a ∧ s.rest = w a ++ s'.rest
  enc : ∀ a x, fits a → f (fresh (w a ++ x)) = .ok (a, fresh x)

theorem bind_ok {α β : Type} {x : Outcome α} {f : α → Outcome β} {b : β} :
    x.bind f = .ok b ↔ ∃ a, x = .ok a ∧ f a = .ok b := by
  cases x <;> simp [Outcome.bind]

theorem codec_num (k junk : Nat) : Codec (readNum k junk) (leBytes k) (· < 256 ^ k) := by
  constructor
  · intro s v s' h hg
    unfold readNum at h
    rcases e : s.read k with ⟨o, s1⟩
    rw [e] at h
    cases o with
    | none =>
      dsimp only at h
      injection h with h
      obtain ⟨rfl, rfl⟩ := Prod.mk.inj h
      obtain ⟨_, _, _, h, _⟩ := read_good e hg.2
      cases h
    | some bs =>
      dsimp only at h
      injection h with h
      obtain ⟨rfl, rfl⟩ := Prod.mk.inj h
      obtain ⟨h1, _, a, h2, h3, h4⟩ := read_good e hg.2
      cases h2
      refine ⟨h1, h3 ▸ leNat_lt bs, ?_⟩
      rw [h4, ← h3, leBytes_leNat]
  · intro v x hv
    unfold readNum
    rw [read_fresh (length_leBytes k v)]
    dsimp only
    rw [leNat_leBytes k v hv]

theorem codec_bool (junk : Nat) : Codec (readBool junk) boolBytes (fun _ => True) := by
  constructor
  · intro s v s' h hg
    unfold readBool at h
    obtain ⟨r, h1, h2⟩ := bind_ok.mp h
    split_ifs at h2 with h3 h4
    · injection h2 with h2
      obtain ⟨rfl, rfl⟩ := Prod.mk.inj h2
      obtain ⟨k1, _, k2⟩ := (codec_num 4 junk).dec s r.1 r.2 h1 hg
      exact ⟨k1, trivial, by rw [k2, h3]; rfl⟩
    · injection h2 with h2
      obtain ⟨rfl, rfl⟩ := Prod.mk.inj h2
      obtain ⟨k1, _, k2⟩ := (codec_num 4 junk).dec s r.1 r.2 h1 hg
      exact ⟨k1, trivial, by rw [k2, h4]; rfl⟩
  · intro v x _
    unfold readBool boolBytes
    rw [(codec_num 4 junk).enc _ x (by split_ifs <;> decide)]
    cases v <;> rfl

/-! ## Header -/

/-- The fields fit in the 16 and 32 bits they have. -/
structure Header.Fits (h : Header) : Prop where
  inputSymbols : h.inputSymbols < 2 ^ 16
  symbols : h.symbols < 2 ^ 16
  indexSize : h.indexSize < 2 ^ 32
  targetSize : h.targetSize < 2 ^ 32
  states : h.states < 2 ^ 32
  transitions : h.transitions < 2 ^ 32

theorem codec_header (junk : Nat → Nat) : Codec (readHeader junk) Header.write Header.Fits := by
  constructor
  · intro s hd s' h hg
    unfold readHeader at h
    obtain ⟨⟨a, s0⟩, e0, h⟩ := bind_ok.mp h
    obtain ⟨⟨b, s1⟩, e1, h⟩ := bind_ok.mp h
    obtain ⟨⟨c, s2⟩, e2, h⟩ := bind_ok.mp h
    obtain ⟨⟨d, s3⟩, e3, h⟩ := bind_ok.mp h
    obtain ⟨⟨e, s4⟩, e4, h⟩ := bind_ok.mp h
    obtain ⟨⟨f, s5⟩, e5, h⟩ := bind_ok.mp h
    obtain ⟨⟨g, s6⟩, e6, h⟩ := bind_ok.mp h
    obtain ⟨⟨i, s7⟩, e7, h⟩ := bind_ok.mp h
    obtain ⟨⟨j, s8⟩, e8, h⟩ := bind_ok.mp h
    obtain ⟨⟨k, s9⟩, e9, h⟩ := bind_ok.mp h
    obtain ⟨⟨l, s10⟩, e10, h⟩ := bind_ok.mp h
    obtain ⟨⟨m, s11⟩, e11, h⟩ := bind_ok.mp h
    obtain ⟨⟨n, s12⟩, e12, h⟩ := bind_ok.mp h
    obtain ⟨⟨o, s13⟩, e13, h⟩ := bind_ok.mp h
    obtain ⟨⟨p, s14⟩, e14, h⟩ := bind_ok.mp h
    dsimp only at e0 e1 e2 e3 e4 e5 e6 e7 e8 e9 e10 e11 e12 e13 e14 h
    split_ifs at h
    injection h with h
    obtain ⟨rfl, rfl⟩ := Prod.mk.inj h
    obtain ⟨g14, _, r14⟩ := (codec_bool _).dec _ _ _ e14 hg
    obtain ⟨g13, _, r13⟩ := (codec_bool _).dec _ _ _ e13 g14
    obtain ⟨g12, _, r12⟩ := (codec_bool _).dec _ _ _ e12 g13
    obtain ⟨g11, _, r11⟩ := (codec_bool _).dec _ _ _ e11 g12
    obtain ⟨g10, _, r10⟩ := (codec_bool _).dec _ _ _ e10 g11
    obtain ⟨g9, _, r9⟩ := (codec_bool _).dec _ _ _ e9 g10
    obtain ⟨g8, _, r8⟩ := (codec_bool _).dec _ _ _ e8 g9
    obtain ⟨g7, _, r7⟩ := (codec_bool _).dec _ _ _ e7 g8
    obtain ⟨g6, _, r6⟩ := (codec_bool _).dec _ _ _ e6 g7
    obtain ⟨g5, f5, r5⟩ := (codec_num _ _).dec _ _ _ e5 g6
    obtain ⟨g4, f4, r4⟩ := (codec_num _ _).dec _ _ _ e4 g5
    obtain ⟨g3, f3, r3⟩ := (codec_num _ _).dec _ _ _ e3 g4
    obtain ⟨g2, f2, r2⟩ := (codec_num _ _).dec _ _ _ e2 g3
    obtain ⟨g1, f1, r1⟩ := (codec_num _ _).dec _ _ _ e1 g2
    obtain ⟨g0, f0, r0⟩ := (codec_num _ _).dec _ _ _ e0 g1
    refine ⟨g0, ⟨f0, f1, f2, f3, f4, f5⟩, ?_⟩
    rw [r0, r1, r2, r3, r4, r5, r6, r7, r8, r9, r10, r11, r12, r13, r14]
    simp only [Header.write, List.append_assoc]
  · intro h x hf
    unfold readHeader Header.write
    simp only [List.append_assoc]
    simp only [(codec_num 2 _).enc _ _ hf.inputSymbols, (codec_num 2 _).enc _ _ hf.symbols,
      (codec_num 4 _).enc _ _ hf.indexSize, (codec_num 4 _).enc _ _ hf.targetSize,
      (codec_num 4 _).enc _ _ hf.states, (codec_num 4 _).enc _ _ hf.transitions, (codec_bool _).enc _ _ trivial,
      Outcome.bind]
    rfl

theorem readNum_ok (k junk : Nat) (s : In) : ∃ r, readNum k junk s = .ok r := by
  unfold readNum
  split
  · exact ⟨_, rfl⟩
  · exact ⟨_, rfl⟩

theorem bind_defined {α β : Type} {x : Outcome α} {f : α → Outcome β} (hx : x ≠ .undefined) (hf : ∀ a, f a ≠ .undefined) :
    x.bind f ≠ .undefined := by
  cases x with
  | ok a => exact hf a
  | throws => simp [Outcome.bind]
  | undefined => exact absurd rfl hx

theorem readNum_defined (k junk : Nat) (s : In) : readNum k junk s ≠ .undefined := by
  obtain ⟨r, e⟩ := readNum_ok k junk s
  rw [e]; simp

theorem readBool_defined (junk : Nat) (s : In) : readBool junk s ≠ .undefined := by
  unfold readBool
  refine bind_defined (readNum_defined _ _ _) fun a => ?_
  split_ifs <;> simp

theorem readHeader_defined (junk : Nat → Nat) (s : In) : readHeader junk s ≠ .undefined := by
  unfold readHeader
  iterate 6 (refine bind_defined (readNum_defined _ _ _) fun _ => ?_)
  iterate 9 (refine bind_defined (readBool_defined _ _) fun _ => ?_)
  split_ifs <;> simp

theorem bool_eof {junk : Nat} {s s' : In} {b : Bool} (h : readBool junk s = .ok (b, s')) (hf : s'.fail = false) : Good s' := by
  unfold readBool at h
  obtain ⟨r, h1, h2⟩ := bind_ok.mp h
  have hr : s' = r.2 := by
    split_ifs at h2
    · injection h2 with h2; exact (Prod.mk.inj h2).2.symm
    · injection h2 with h2; exact (Prod.mk.inj h2).2.symm
  subst hr
  unfold readNum at h1
  rcases e : s.read 4 with ⟨o, s1⟩
  rw [e] at h1
  cases o <;> (injection h1 with h1; subst h1; exact (read_good e hf).2.1)

theorem header_good {junk : Nat → Nat} {s s' : In} {h : Header} (e : readHeader junk s = .ok (h, s')) : Good s' := by
  unfold readHeader at e
  iterate 14 (obtain ⟨_, _, e⟩ := bind_ok.mp e)
  obtain ⟨⟨p, s14⟩, e14, e⟩ := bind_ok.mp e
  dsimp only at e
  split_ifs at e with hf
  injection e with e
  obtain ⟨_, rfl⟩ := Prod.mk.inj e
  exact bool_eof e14 (by simpa using hf)

/-- A header that was written is read back with equal fields, and reading stops right after it. -/
theorem C34 (h : Header) (hf : h.Fits) (rest : Bytes) (junk : Nat → Nat) :
    readHeader junk (fresh (h.write ++ rest)) = .ok (h, fresh rest) := (codec_header junk).enc h rest hf

/-- Reading a header either gives a header whose written form the file begins with, or an exception; whatever uninitialized
variables contain. -/
theorem C34_exact (bs : Bytes) (junk : Nat → Nat) :
    (∃ h rest, h.Fits ∧ bs = h.write ++ rest ∧ readHeader junk (fresh bs) = .ok (h, fresh rest)) ∨
      ((∀ h : Header, ¬ (h.Fits ∧ h.write <+: bs)) ∧ readHeader junk (fresh bs) = .throws) := by
  cases e : readHeader junk (fresh bs) with
  | ok r =>
    obtain ⟨h, s'⟩ := r
    have hg := header_good e
    obtain ⟨_, h1, h2⟩ := (codec_header junk).dec _ _ _ e hg
    exact .inl ⟨h, s'.rest, h1, h2, by rw [← hg.eq]⟩
  | throws =>
    refine .inr ⟨?_, rfl⟩
    rintro h ⟨h1, r, rfl⟩
    rw [C34 h h1] at e
    cases e
  | undefined => exact absurd e (readHeader_defined _ _)

theorem length_header (h : Header) : h.write.length = 56 := by
  simp [Header.write, boolBytes, length_leBytes]

/-- A file of less than 56 bytes is refused. -/
theorem C34_short (bs : Bytes) (junk : Nat → Nat) (h : bs.length < 56) : readHeader junk (fresh bs) = .throws := by
  rcases C34_exact bs junk with ⟨hd, rest, _, rfl, _⟩ | ⟨_, h⟩
  · rw [List.length_append, length_header] at h; omega
  · exact h

/-- A file with a property field that is neither 0 nor 1 is refused.  Field `i` is at byte 20 + 4 * `i`. -/
theorem C34_property (bs : Bytes) (junk : Nat → Nat) (i : Nat) (hi : i < 9)
    (h : leNat ((bs.drop (20 + 4 * i)).take 4) ≠ 0 ∧ leNat ((bs.drop (20 + 4 * i)).take 4) ≠ 1) :
    readHeader junk (fresh bs) = .throws := by
  rcases C34_exact bs junk with ⟨hd, rest, _, rfl, _⟩ | ⟨_, h⟩
  · exfalso
    have key : ∀ (b : Bool) (pre post : Bytes), pre.length = 20 + 4 * i → hd.write ++ rest = pre ++ (boolBytes b ++ post) → False := by
      intro b pre post hl e
      rw [e, ← hl, List.drop_left, List.take_left' (by simp [boolBytes, length_leBytes])] at h
      cases b
      · exact h.1 (by decide)
      · exact h.2 (by decide)
    have lens : ∀ b, (boolBytes b).length = 4 := fun b => by simp [boolBytes, length_leBytes]
    have l2 := length_leBytes 2
    have l4 := length_leBytes 4
    match i, hi with
    | 0, _ => exact key hd.weighted (leBytes 2 hd.inputSymbols ++ (leBytes 2 hd.symbols ++ (leBytes 4 hd.indexSize ++ (leBytes 4 hd.targetSize ++ (leBytes 4 hd.states ++ leBytes 4 hd.transitions))))) _ (by simp [l2, l4]) (by simp only [Header.write, List.append_assoc]; rfl)
    | 1, _ => exact key hd.deterministic (leBytes 2 hd.inputSymbols ++ (leBytes 2 hd.symbols ++ (leBytes 4 hd.indexSize ++ (leBytes 4 hd.targetSize ++ (leBytes 4 hd.states ++ (leBytes 4 hd.transitions ++ boolBytes hd.weighted)))))) _ (by simp [l2, l4, lens]) (by simp only [Header.write, List.append_assoc]; rfl)
    | 2, _ => exact key hd.inputDeterministic (leBytes 2 hd.inputSymbols ++ (leBytes 2 hd.symbols ++ (leBytes 4 hd.indexSize ++ (leBytes 4 hd.targetSize ++ (leBytes 4 hd.states ++ (leBytes 4 hd.transitions ++ (boolBytes hd.weighted ++ boolBytes hd.deterministic))))))) _ (by simp [l2, l4, lens]) (by simp only [Header.write, List.append_assoc]; rfl)
    | 3, _ => exact key hd.minimized (leBytes 2 hd.inputSymbols ++ (leBytes 2 hd.symbols ++ (leBytes 4 hd.indexSize ++ (leBytes 4 hd.targetSize ++ (leBytes 4 hd.states ++ (leBytes 4 hd.transitions ++ (boolBytes hd.weighted ++ (boolBytes hd.deterministic ++ boolBytes hd.inputDeterministic)))))))) _ (by simp [l2, l4, lens]) (by simp only [Header.write, List.append_assoc]; rfl)
    | 4, _ => exact key hd.cyclic (leBytes 2 hd.inputSymbols ++ (leBytes 2 hd.symbols ++ (leBytes 4 hd.indexSize ++ (leBytes 4 hd.targetSize ++ (leBytes 4 hd.states ++ (leBytes 4 hd.transitions ++ (boolBytes hd.weighted ++ (boolBytes hd.deterministic ++ (boolBytes hd.inputDeterministic ++ boolBytes hd.minimized))))))))) _ (by simp [l2, l4, lens]) (by simp only [Header.write, List.append_assoc]; rfl)
    | 5, _ => exact key hd.epsilonEpsilon (leBytes 2 hd.inputSymbols ++ (leBytes 2 hd.symbols ++ (leBytes 4 hd.indexSize ++ (leBytes 4 hd.targetSize ++ (leBytes 4 hd.states ++ (leBytes 4 hd.transitions ++ (boolBytes hd.weighted ++ (boolBytes hd.deterministic ++ (boolBytes hd.inputDeterministic ++ (boolBytes hd.minimized ++ boolBytes hd.cyclic)))))))))) _ (by simp [l2, l4, lens]) (by simp only [Header.write, List.append_assoc]; rfl)
    | 6, _ => exact key hd.inputEpsilon (leBytes 2 hd.inputSymbols ++ (leBytes 2 hd.symbols ++ (leBytes 4 hd.indexSize ++ (leBytes 4 hd.targetSize ++ (leBytes 4 hd.states ++ (leBytes 4 hd.transitions ++ (boolBytes hd.weighted ++ (boolBytes hd.deterministic ++ (boolBytes hd.inputDeterministic ++ (boolBytes hd.minimized ++ (boolBytes hd.cyclic ++ boolBytes hd.epsilonEpsilon))))))))))) _ (by simp [l2, l4, lens]) (by simp only [Header.write, List.append_assoc]; rfl)
    | 7, _ => exact key hd.inputEpsilonCycles (leBytes 2 hd.inputSymbols ++ (leBytes 2 hd.symbols ++ (leBytes 4 hd.indexSize ++ (leBytes 4 hd.targetSize ++ (leBytes 4 hd.states ++ (leBytes 4 hd.transitions ++ (boolBytes hd.weighted ++ (boolBytes hd.deterministic ++ (boolBytes hd.inputDeterministic ++ (boolBytes hd.minimized ++ (boolBytes hd.cyclic ++ (boolBytes hd.epsilonEpsilon ++ boolBytes hd.inputEpsilon)))))))))))) _ (by simp [l2, l4, lens]) (by simp only [Header.write, List.append_assoc]; rfl)
    | 8, _ => exact key hd.unweightedInputEpsilonCycles (leBytes 2 hd.inputSymbols ++ (leBytes 2 hd.symbols ++ (leBytes 4 hd.indexSize ++ (leBytes 4 hd.targetSize ++ (leBytes 4 hd.states ++ (leBytes 4 hd.transitions ++ (boolBytes hd.weighted ++ (boolBytes hd.deterministic ++ (boolBytes hd.inputDeterministic ++ (boolBytes hd.minimized ++ (boolBytes hd.cyclic ++ (boolBytes hd.epsilonEpsilon ++ (boolBytes hd.inputEpsilon ++ boolBytes hd.inputEpsilonCycles))))))))))))) rest (by simp [l2, l4, lens]) (by simp only [Header.write, List.append_assoc])
  · exact h

/-- A header with different fields. -/
def someHeader : Header :=
  ⟨300, 301, 70000, 2, 5, 6, true, false, true, false, true, false, true, true, false⟩

example : someHeader.Fits := ⟨by decide, by decide, by decide, by decide, by decide, by decide⟩

/-- `C34_property` applies to this header with 2 as the fifth property. -/
example : leNat ((((someHeader.write.set 36 2)).drop (20 + 4 * 4)).take 4) = 2 := by decide +kernel

/-! ## Flags of the header -/

/-- Setting a property to true makes it true and changes no other property and no number.  Missing: setting it to false, see
`C36_violated`. -/
theorem C36_partial (h : Header) (f : HeaderFlag) :
    (h.setFlag f true).probe f = true ∧ (∀ f', f' ≠ f → (h.setFlag f true).probe f' = h.probe f') ∧
    (h.setFlag f true).inputSymbols = h.inputSymbols ∧ (h.setFlag f true).symbols = h.symbols ∧
    (h.setFlag f true).indexSize = h.indexSize ∧ (h.setFlag f true).targetSize = h.targetSize ∧
    (h.setFlag f true).states = h.states ∧ (h.setFlag f true).transitions = h.transitions := by
  refine ⟨by cases f <;> rfl, ?_, ?_⟩
  · intro f' hne
    cases f <;> cases f' <;> first | rfl | exact absurd rfl hne
  · cases f <;> exact ⟨rfl, rfl, rfl, rfl, rfl, rfl⟩

/-- Setting a property to false makes it true, whatever it was. -/
theorem C36_violated (h : Header) (f : HeaderFlag) : (h.setFlag f false).probe f = true := by
  cases f <;> rfl

example : someHeader.probe .minimized = false ∧ (someHeader.setFlag .minimized false).probe .minimized = true := by decide

/-! ## Alphabet -/

/-- No byte of the symbol is 0. -/
def NulFree (x : Bytes) : Prop := (0 : UInt8) ∉ x

theorem mem_takeWhile_pos {α : Type} {p : α → Bool} {b : α} : ∀ {l : List α}, b ∈ l.takeWhile p → p b = true
  | [], h => by simp at h
  | c :: l, h => by
    rw [List.takeWhile_cons] at h
    split_ifs at h with hc
    · rcases List.mem_cons.mp h with rfl | h
      · exact hc
      · exact mem_takeWhile_pos h
    · cases h

theorem takeWhile_nul {x rest : Bytes} (h : NulFree x) : (x ++ 0 :: rest).takeWhile (· ≠ 0) = x := by
  rw [List.takeWhile_append_of_pos]
  · simp
  · intro b hb
    simp only [decide_eq_true_eq]
    intro e
    exact h (e ▸ hb)

theorem getline_fresh {x rest : Bytes} (h : NulFree x) : (fresh (x ++ 0 :: rest)).getline = (x, fresh rest) := by
  unfold In.getline fresh
  simp only [Bool.false_eq_true, or_self, if_false]
  rw [takeWhile_nul h, List.drop_left]

theorem getline_good {s s' : In} {x : Bytes} (h : s.getline = (x, s')) (hg : Good s') :
    Good s ∧ NulFree x ∧ s.rest = x ++ 0 :: s'.rest := by
  unfold In.getline at h
  split_ifs at h with h1
  · cases h; cases hg.2
  · have hgs : Good s := by
      constructor
      · cases e : s.eof with
        | false => rfl
        | true => exact absurd (.inl e) h1
      · cases e : s.fail with
        | false => rfl
        | true => exact absurd (.inr e) h1
    dsimp only at h
    split at h
    · cases h; cases hg.1
    · rename_i b rest hd
      obtain ⟨rfl, rfl⟩ := Prod.mk.inj h
      have hsplit := List.takeWhile_append_dropWhile (p := fun b : UInt8 => decide (b ≠ 0)) (l := s.rest)
      have hdrop : s.rest.dropWhile (fun b : UInt8 => decide (b ≠ 0)) = b :: rest := by
        rw [← hd]
        conv_rhs => rw [← hsplit]
        rw [List.takeWhile_append_dropWhile, ← hsplit, List.takeWhile_append_dropWhile]
        conv_rhs => arg 2; rw [← hsplit]
        rw [List.drop_left]
      have hb : b = 0 := by
        have := List.head?_dropWhile_not (fun b : UInt8 => decide (b ≠ 0)) s.rest
        rw [hdrop] at this
        simpa using this
      refine ⟨hgs, ?_, ?_⟩
      · intro h0
        have := mem_takeWhile_pos h0
        simp at this
      · rw [← hsplit, hdrop, hb]
        rw [List.takeWhile_append_of_pos]
        · simp
        · intro c hc; exact mem_takeWhile_pos (p := fun b : UInt8 => decide (b ≠ 0)) hc

theorem note_table (al : Alphabet) (T : List Bytes) (i : Nat) (x : Bytes) :
    ({ al with table := T } : Alphabet).note i x = { al.note i x with table := T } := by
  unfold Alphabet.note
  split_ifs <;> rfl

theorem noteAll_table : ∀ (xs : List Bytes) (al : Alphabet) (T : List Bytes) (i : Nat),
    Alphabet.noteAll xs i { al with table := T } = { Alphabet.noteAll xs i al with table := T }
  | [], _, _, _ => rfl
  | x :: xs, al, T, i => by
    rw [Alphabet.noteAll, note_table, noteAll_table xs, Alphabet.noteAll]

theorem noteAll_keeps : ∀ (xs : List Bytes) (al : Alphabet) (i : Nat), (Alphabet.noteAll xs i al).table = al.table
  | [], _, _ => rfl
  | x :: xs, al, i => by
    rw [Alphabet.noteAll, noteAll_keeps xs]
    unfold Alphabet.note
    split_ifs <;> rfl

theorem readSymbols_enc : ∀ (xs : List Bytes) (i : Nat) (al : Alphabet) (rest : Bytes), (∀ x ∈ xs, NulFree x) →
    readSymbols xs.length i al (fresh (xs.flatMap (fun x => x ++ [0]) ++ rest)) =
      .ok ({ Alphabet.noteAll xs i al with table := al.table ++ xs }, fresh rest)
  | [], i, al, rest, _ => by simp [readSymbols, Alphabet.noteAll]
  | x :: xs, i, al, rest, h => by
    have e : List.flatMap (fun x => x ++ [0]) (x :: xs) ++ rest = x ++ (0 : UInt8) :: (xs.flatMap (fun x => x ++ [0]) ++ rest) := by
      simp
    rw [List.length_cons, readSymbols, e]
    simp only [getline_fresh (h x (List.mem_cons_self ..))]
    rw [if_neg (by simp [fresh]), readSymbols_enc xs _ _ rest fun y hy => h y (List.mem_cons_of_mem _ hy), noteAll_table]
    have ht : (al.note i x).table = al.table := noteAll_keeps [x] al i
    rw [ht, Alphabet.noteAll]
    simp

theorem readSymbols_dec : ∀ (n i : Nat) (al al' : Alphabet) (s s' : In), readSymbols n i al s = .ok (al', s') → Good s' →
    Good s ∧ ∃ xs : List Bytes, xs.length = n ∧ (∀ x ∈ xs, NulFree x) ∧
      al' = { Alphabet.noteAll xs i al with table := al.table ++ xs } ∧ s.rest = xs.flatMap (fun x => x ++ [0]) ++ s'.rest
  | 0, i, al, al', s, s', h, hg => by
    rw [readSymbols] at h
    injection h with h
    obtain ⟨rfl, rfl⟩ := Prod.mk.inj h
    exact ⟨hg, [], rfl, by simp, by simp [Alphabet.noteAll], by simp⟩
  | n + 1, i, al, al', s, s', h, hg => by
    rw [readSymbols] at h
    rcases e : s.getline with ⟨x, s1⟩
    rw [e] at h
    dsimp only at h
    split_ifs at h
    obtain ⟨g1, xs, h1, h2, h3, h4⟩ := readSymbols_dec n _ _ _ _ _ h hg
    obtain ⟨g0, h5, h6⟩ := getline_good e g1
    refine ⟨g0, x :: xs, by rw [List.length_cons, h1], ?_, ?_, ?_⟩
    · intro y hy
      rcases List.mem_cons.mp hy with rfl | hy
      · exact h5
      · exact h2 y hy
    · have ht : (al.note i x).table = al.table := noteAll_keeps [x] al i
      rw [h3, noteAll_table, Alphabet.noteAll, ht]
      simp
    · rw [h6, h4]; simp

/-- The alphabet has this many symbols, without zero bytes, and its special symbols are those of its symbols. -/
structure Alphabet.Fits (n : Nat) (al : Alphabet) : Prop where
  specials : al = Alphabet.ofTable al.table
  length : al.table.length = n
  nul : ∀ x ∈ al.table, NulFree x

theorem ofTable_table (xs : List Bytes) : (Alphabet.ofTable xs).table = xs := noteAll_keeps _ _ _

theorem codec_alphabet (n : Nat) : Codec (readAlphabet n) Alphabet.write (Alphabet.Fits n) := by
  have key : ∀ xs : List Bytes, ({ Alphabet.noteAll xs 0 ⟨[], noSymbol, noSymbol, noSymbol⟩ with table := [] ++ xs } : Alphabet) =
      Alphabet.ofTable xs := by
    intro xs
    rw [Alphabet.ofTable, ← noteAll_table]
    rfl
  constructor
  · intro s al s' h hg
    obtain ⟨g, xs, h1, h2, h3, h4⟩ := readSymbols_dec _ _ _ _ _ _ h hg
    have h3 : al = Alphabet.ofTable xs := by rw [h3]; exact key xs
    have ht : al.table = xs := by rw [h3, ofTable_table]
    exact ⟨g, ⟨by rw [ht]; exact h3, by rw [ht]; exact h1, by rw [ht]; exact h2⟩, by rw [h4, Alphabet.write, ht]⟩
  · intro al x hf
    unfold readAlphabet Alphabet.write
    rw [← hf.length, readSymbols_enc _ _ _ _ hf.nul]
    conv_rhs => rw [hf.specials]
    exact congrArg (fun a => Outcome.ok (a, fresh x)) (key _)

theorem readSymbols_defined : ∀ (n i : Nat) (al : Alphabet) (s : In), readSymbols n i al s ≠ .undefined
  | 0, _, _, _ => by simp [readSymbols]
  | n + 1, i, al, s => by
    rw [readSymbols]
    split_ifs
    · simp
    · exact readSymbols_defined _ _ _ _

/-! ## Tables -/

/-- The entries of a table: `size` bytes each, as written by `w`. -/
structure EntryCodec {α : Type} (size : Nat) (parse : Bytes → α) (w : α → Bytes) (fits : α → Prop) : Prop where
  len : ∀ a, (w a).length = size
  dec : ∀ bs : Bytes, bs.length = size → fits (parse bs) ∧ w (parse bs) = bs
  enc : ∀ a, fits a → parse (w a) = a

theorem parseAll_dec {α : Type} {size : Nat} {parse : Bytes → α} {w : α → Bytes} {fits : α → Prop}
    (hc : EntryCodec size parse w fits) : ∀ (n : Nat) (bs : Bytes), bs.length = size * n →
    (parseAll size parse n bs).length = n ∧ (∀ a ∈ parseAll size parse n bs, fits a) ∧
      bs = (parseAll size parse n bs).flatMap w
  | 0, bs, h => by
    rw [Nat.mul_zero] at h
    rw [List.eq_nil_of_length_eq_zero h]
    simp [parseAll]
  | n + 1, bs, h => by
    rw [Nat.mul_succ] at h
    obtain ⟨h1, h2, h3⟩ := parseAll_dec hc n (bs.drop size) (by rw [List.length_drop]; omega)
    obtain ⟨h4, h5⟩ := hc.dec (bs.take size) (by rw [List.length_take]; omega)
    rw [parseAll]
    refine ⟨by rw [List.length_cons, h1], ?_, ?_⟩
    · intro a ha
      rcases List.mem_cons.mp ha with rfl | ha
      · exact h4
      · exact h2 a ha
    · rw [List.flatMap_cons, h5, ← h3, List.take_append_drop]

theorem parseAll_enc {α : Type} {size : Nat} {parse : Bytes → α} {w : α → Bytes} {fits : α → Prop}
    (hc : EntryCodec size parse w fits) : ∀ (l : List α), (∀ a ∈ l, fits a) →
    (l.flatMap w).length = size * l.length ∧ parseAll size parse l.length (l.flatMap w) = l
  | [], _ => by simp [parseAll]
  | a :: l, h => by
    obtain ⟨h1, h2⟩ := parseAll_enc hc l fun b hb => h b (List.mem_cons_of_mem _ hb)
    have hs := hc.len a
    rw [List.flatMap_cons, List.length_cons, parseAll]
    refine ⟨by rw [List.length_append, h1, hs, Nat.mul_succ, Nat.add_comm], ?_⟩
    rw [List.take_left' hs, List.drop_left' hs, h2, hc.enc a (h a (List.mem_cons_self ..))]

theorem readTable_dec {α : Type} {size : Nat} {parse : Bytes → α} {w : α → Bytes} {fits : α → Prop}
    (hc : EntryCodec size parse w fits) {junk : Bytes} {n : Nat} {s s' : In} {l : List α}
    (h : readTable size parse junk n s = (l, s')) (hf : s'.fail = false) :
    Good s ∧ Good s' ∧ l.length = n ∧ (∀ a ∈ l, fits a) ∧ s.rest = l.flatMap w ++ s'.rest := by
  unfold readTable at h
  rcases e : s.read (size * n) with ⟨o, s1⟩
  rw [e] at h
  cases o with
  | none =>
    obtain ⟨_, rfl⟩ := Prod.mk.inj h
    obtain ⟨_, _, a, h, _⟩ := read_good e hf
    cases h
  | some bs =>
    obtain ⟨rfl, rfl⟩ := Prod.mk.inj h
    obtain ⟨g, g', a, h1, h2, h3⟩ := read_good e hf
    cases h1
    obtain ⟨k1, k2, k3⟩ := parseAll_dec hc n bs h2
    exact ⟨g, g', k1, k2, by rw [← k3]; exact h3⟩

theorem readTable_enc {α : Type} {size : Nat} {parse : Bytes → α} {w : α → Bytes} {fits : α → Prop}
    (hc : EntryCodec size parse w fits) (junk : Bytes) {n : Nat} {l : List α} (hl : l.length = n) (hfit : ∀ a ∈ l, fits a)
    (rest : Bytes) : readTable size parse junk n (fresh (l.flatMap w ++ rest)) = (l, fresh rest) := by
  subst hl
  obtain ⟨h1, h2⟩ := parseAll_enc hc l hfit
  unfold readTable
  rw [read_fresh h1]
  dsimp only
  rw [h2]

/-- The fields fit in 16 and 32 bits. -/
def Index.Fits (x : Index) : Prop := x.input < 2 ^ 16 ∧ x.target < 2 ^ 32

/-- The fields fit in 16 and 32 bits, and without weights there is no weight. -/
def Trans.Fits (weighted : Bool) (x : Trans) : Prop :=
  x.input < 2 ^ 16 ∧ x.output < 2 ^ 16 ∧ x.target < 2 ^ 32 ∧ x.weight < 2 ^ 32 ∧ (weighted = false → x.weight = 0)

theorem le_take {k : Nat} {bs : Bytes} (h : k ≤ bs.length) : leBytes k (leNat (bs.take k)) = bs.take k := by
  have := leBytes_leNat (bs.take k)
  rwa [List.length_take, Nat.min_eq_left h] at this

theorem leNat_take_lt (k : Nat) (bs : Bytes) : leNat (bs.take k) < 256 ^ k :=
  Nat.lt_of_lt_of_le (leNat_lt _) (Nat.pow_le_pow_right (by omega) (by rw [List.length_take]; omega))

theorem codec_index : EntryCodec 6 Index.parse (Index.write true) Index.Fits := by
  constructor
  · intro a; simp [Index.write, length_leBytes]
  · intro bs h
    refine ⟨⟨leNat_take_lt 2 _, leNat_take_lt 4 _⟩, ?_⟩
    unfold Index.write Index.parse
    rw [if_neg (by simp), le_take (by omega), le_take (by rw [List.length_drop]; omega)]
    have : (bs.drop 2).take 4 = bs.drop 2 := List.take_of_length_le (by rw [List.length_drop]; omega)
    rw [this, List.take_append_drop]
  · rintro ⟨i, t⟩ ⟨h1, h2⟩
    have l2 := length_leBytes 2 i
    unfold Index.write Index.parse
    rw [if_neg (by simp)]
    dsimp only
    rw [List.take_left' l2, List.drop_left' l2, List.take_of_length_le (Nat.le_of_eq (length_leBytes ..)), leNat_leBytes 2 _ h1,
      leNat_leBytes 4 _ h2]

theorem codec_trans (weighted : Bool) :
    EntryCodec (transSize weighted) (Trans.parse weighted) (Trans.write weighted) (Trans.Fits weighted) := by
  constructor
  · intro a; cases weighted <;> simp [Trans.write, length_leBytes, transSize]
  · intro bs h
    have hl : 8 ≤ bs.length := by rw [h]; unfold transSize; split_ifs <;> omega
    constructor
    · refine ⟨leNat_take_lt 2 _, leNat_take_lt 2 _, leNat_take_lt 4 _, ?_, ?_⟩
      · unfold Trans.parse
        dsimp only
        split_ifs
        · exact leNat_take_lt 4 _
        · decide
      · rintro rfl; rfl
    · unfold Trans.write Trans.parse
      dsimp only
      rw [le_take (by omega), le_take (by rw [List.length_drop]; omega), le_take (by rw [List.length_drop]; omega)]
      have e1 : bs.drop 4 = (bs.drop 2).drop 2 := by rw [List.drop_drop]
      have e2 : bs.drop 8 = (bs.drop 4).drop 4 := by rw [List.drop_drop]
      cases weighted with
      | true =>
        simp only [if_true]
        rw [transSize, if_pos rfl] at h
        rw [le_take (by rw [List.length_drop]; omega)]
        have : (bs.drop 8).take 4 = bs.drop 8 := List.take_of_length_le (by rw [List.length_drop]; omega)
        rw [this, e2, List.take_append_drop, e1, List.take_append_drop, List.take_append_drop]
      | false =>
        simp only [Bool.false_eq_true, if_false, List.append_nil]
        rw [transSize, if_neg (by simp)] at h
        have : (bs.drop 4).take 4 = bs.drop 4 := List.take_of_length_le (by rw [List.length_drop]; omega)
        rw [this, e1, List.take_append_drop, List.take_append_drop]
  · rintro ⟨i, o, t, v⟩ ⟨h1, h2, h3, h4, h5⟩
    dsimp only at h1 h2 h3 h4 h5
    unfold Trans.write Trans.parse
    dsimp only
    have e2 : (leBytes 2 i ++ (leBytes 2 o ++ (leBytes 4 t ++ if weighted = true then leBytes 4 v else []))).drop 4 =
        leBytes 4 t ++ if weighted = true then leBytes 4 v else [] := by
      rw [← List.append_assoc]
      exact List.drop_left' (by simp [length_leBytes])
    have e3 : (leBytes 2 i ++ (leBytes 2 o ++ (leBytes 4 t ++ if weighted = true then leBytes 4 v else []))).drop 8 =
        if weighted = true then leBytes 4 v else [] := by
      rw [← List.append_assoc, ← List.append_assoc]
      exact List.drop_left' (by simp [length_leBytes])
    rw [e2, e3, List.take_left' (length_leBytes 2 i), List.drop_left' (length_leBytes 2 i), List.take_left' (length_leBytes 2 o),
      List.take_left' (length_leBytes 4 t), leNat_leBytes 2 _ h1, leNat_leBytes 2 _ h2, leNat_leBytes 4 _ h3]
    cases weighted with
    | true =>
      simp only [if_true]
      rw [List.take_of_length_le (Nat.le_of_eq (length_leBytes ..)), leNat_leBytes 4 _ h4]
    | false => simp [h5 rfl]

/-! ## The whole file -/

/-- What a transducer in memory and its header agree on. -/
structure Transducer.Consistent (t : Transducer) : Prop where
  header : t.header.Fits
  alphabet : t.alphabet.Fits t.header.symbols
  indexCount : t.indices.length = t.header.indexSize
  indices : ∀ x ∈ t.indices, x.Fits
  transCount : t.transitions.length = t.header.targetSize
  transitions : ∀ x ∈ t.transitions, x.Fits t.header.weighted

/-- The bytes of the file with all entries as they are in memory. -/
def Transducer.bytes (t : Transducer) : Bytes :=
  t.header.write ++ (t.alphabet.write ++ (t.indices.flatMap (Index.write true) ++
    t.transitions.flatMap (Trans.write t.header.weighted)))

theorem file_good {junk : Nat → Nat} {buffer : Bytes} {s s' : In} {t : Transducer}
    (h : readTransducer junk buffer s = .ok (t, s')) : Good s' := by
  unfold readTransducer at h
  obtain ⟨h0, _, h⟩ := bind_ok.mp h
  obtain ⟨a0, _, h⟩ := bind_ok.mp h
  obtain ⟨⟨⟨i0, t0⟩, s0⟩, e, h⟩ := bind_ok.mp h
  injection h with h
  obtain ⟨_, rfl⟩ := Prod.mk.inj h
  unfold loadTables at e
  dsimp only at e
  split_ifs at e with hf
  injection e with e
  obtain ⟨_, rfl⟩ := Prod.mk.inj e
  rcases et : readTable (transSize h0.1.weighted) (Trans.parse h0.1.weighted) buffer h0.1.targetSize
    (readTable 6 Index.parse buffer h0.1.indexSize a0.2).2 with ⟨ts', st⟩
  rw [et] at hf
  exact (readTable_dec (codec_trans _) et (by simpa using hf)).2.1

theorem codec_file (junk : Nat → Nat) (buffer : Bytes) :
    Codec (readTransducer junk buffer) Transducer.bytes Transducer.Consistent := by
  constructor
  · intro s t s' h hg
    unfold readTransducer at h
    obtain ⟨⟨hd, s1⟩, e1, h⟩ := bind_ok.mp h
    obtain ⟨⟨al, s2⟩, e2, h⟩ := bind_ok.mp h
    obtain ⟨⟨⟨is, ts⟩, s3⟩, e3, h⟩ := bind_ok.mp h
    dsimp only at e1 e2 e3 h
    injection h with h
    obtain ⟨rfl, rfl⟩ := Prod.mk.inj h
    unfold loadTables at e3
    rcases ei : readTable 6 Index.parse buffer hd.indexSize s2 with ⟨is', si⟩
    rw [ei] at e3
    dsimp only at e3
    rcases et : readTable (transSize hd.weighted) (Trans.parse hd.weighted) buffer hd.targetSize si with ⟨ts', st⟩
    rw [et] at e3
    dsimp only at e3
    split_ifs at e3 with hf
    injection e3 with e3
    obtain ⟨h3, rfl⟩ := Prod.mk.inj e3
    obtain ⟨rfl, rfl⟩ := Prod.mk.inj h3
    obtain ⟨g3, _, c3, f3, r3⟩ := readTable_dec (codec_trans _) et hg.2
    obtain ⟨g2, _, c2, f2, r2⟩ := readTable_dec codec_index ei g3.2
    obtain ⟨g1, f1, r1⟩ := (codec_alphabet _).dec _ _ _ e2 g2
    obtain ⟨g0, f0, r0⟩ := (codec_header _).dec _ _ _ e1 g1
    refine ⟨g0, ⟨f0, f1, c2, f2, c3, f3⟩, ?_⟩
    rw [r0, r1, r2, r3]
    simp only [Transducer.bytes, List.append_assoc]
  · intro t x ht
    unfold readTransducer Transducer.bytes
    simp only [List.append_assoc]
    rw [(codec_header junk).enc _ _ ht.header]
    simp only [Outcome.bind]
    rw [(codec_alphabet _).enc _ _ ht.alphabet]
    simp only [loadTables]
    rw [readTable_enc codec_index buffer ht.indexCount ht.indices,
      readTable_enc (codec_trans _) buffer ht.transCount ht.transitions]
    rfl

theorem readTransducer_defined (junk : Nat → Nat) (buffer : Bytes) (s : In) : readTransducer junk buffer s ≠ .undefined := by
  unfold readTransducer
  refine bind_defined (readHeader_defined _ _) fun _ => bind_defined (readSymbols_defined _ _ _ _) fun _ => bind_defined ?_ fun _ => ?_
  · unfold loadTables
    dsimp only
    split_ifs <;> simp
  · simp

/-- The transducer as it is after writing: without weights, the final weights are not kept, only finality. -/
def Transducer.stored (t : Transducer) : Transducer :=
  { t with indices := t.indices.map fun x =>
      if t.header.weighted = false ∧ x.final = true then { x with target := 1 } else x }

theorem writeEntries_range {α : Type} (w : α → Bytes) (table : List α) :
    ∀ (n a : Nat), a + n = table.length → table.length ≤ targetStart →
      writeEntries w table (List.range' a n) = .ok ((table.drop a).flatMap w)
  | 0, a, h, _ => by
    rw [List.drop_eq_nil_of_le (by omega)]
    rfl
  | n + 1, a, h, hs => by
    have ha : a < table.length := by omega
    rw [List.range'_succ, writeEntries]
    have : tableGet table a = some table[a] := by
      unfold tableGet
      rw [if_pos (by omega), List.getElem?_eq_getElem ha]
    rw [this]
    dsimp only
    rw [writeEntries_range w table n (a + 1) (by omega) hs, List.drop_eq_getElem_cons ha]
    rfl

theorem write_bytes (t : Transducer) (h : t.Consistent) (hi : t.header.indexSize ≤ targetStart)
    (ht : t.header.targetSize ≤ targetStart) : t.write = .ok t.stored.bytes := by
  have e1 := writeEntries_range (Index.write t.header.weighted) t.indices t.header.indexSize 0
    (by rw [h.indexCount]; omega) (by rw [h.indexCount]; exact hi)
  have e2 := writeEntries_range (Trans.write t.header.weighted) t.transitions t.header.targetSize 0
    (by rw [h.transCount]; omega) (by rw [h.transCount]; exact ht)
  have e3 : ∀ l : List Index, l.flatMap (Index.write t.header.weighted) =
      (l.map fun x => if t.header.weighted = false ∧ x.final = true then { x with target := 1 } else x).flatMap
        (Index.write true) := by
    intro l
    rw [List.flatMap_map]
    congr 1
    funext x
    unfold Index.write Index.final
    by_cases hw : t.header.weighted = false ∧ x.input = noSymbol ∧ x.target ≠ noIndex
    · simp [hw]
    · have : ¬ (t.header.weighted = false ∧ decide (x.input = noSymbol ∧ x.target ≠ noIndex) = true) := by
        simpa using hw
      rw [if_neg hw, if_neg this]
      simp
  unfold Transducer.write
  rw [List.range_eq_range', e1, List.range_eq_range', e2]
  simp only [Outcome.bind, List.drop_zero]
  rw [e3]
  rfl

theorem stored_consistent {t : Transducer} (h : t.Consistent) : t.stored.Consistent := by
  refine ⟨h.header, h.alphabet, ?_, ?_, h.transCount, h.transitions⟩
  · simp only [Transducer.stored, List.length_map]; exact h.indexCount
  · intro x hx
    obtain ⟨y, hy, rfl⟩ := List.mem_map.mp hx
    split_ifs
    · exact ⟨(h.indices y hy).1, by show 1 < 2 ^ 32; decide⟩
    · exact h.indices y hy

/-- A weighted transducer that was written is read back the same, and reading stops right after it. -/
theorem C35 (t : Transducer) (h : t.Consistent) (hw : t.header.weighted = true) (hi : t.header.indexSize ≤ targetStart)
    (ht : t.header.targetSize ≤ targetStart) : ∃ bs, t.write = .ok bs ∧
      ∀ junk buffer rest, readTransducer junk buffer (fresh (bs ++ rest)) = .ok (t, fresh rest) := by
  have hs : t.stored = t := by
    unfold Transducer.stored
    rw [hw]
    simp
  refine ⟨_, write_bytes t h hi ht, fun junk buffer rest => ?_⟩
  rw [hs]
  exact (codec_file junk buffer).enc t rest h

/-- A transducer without weights that was written is read back with the same header, symbols and transitions, and with an index
table of which each entry has the same symbol, is final if and only if it was, and, unless it is final, has the same target;
reading stops right after it. -/
theorem C35_unweighted (t : Transducer) (h : t.Consistent) (hw : t.header.weighted = false) (hi : t.header.indexSize ≤ targetStart)
    (ht : t.header.targetSize ≤ targetStart) : ∃ bs t', t.write = .ok bs ∧
      (∀ junk buffer rest, readTransducer junk buffer (fresh (bs ++ rest)) = .ok (t', fresh rest)) ∧
      t'.header = t.header ∧ t'.alphabet = t.alphabet ∧ t'.transitions = t.transitions ∧
      t'.indices.length = t.indices.length ∧
      ∀ (i : Nat) (x : Index), t.indices[i]? = some x → ∃ x' : Index, t'.indices[i]? = some x' ∧ x'.input = x.input ∧ x'.final = x.final ∧
        (x.final = false → x'.target = x.target) ∧ (x.final = true → x'.target = 1) := by
  refine ⟨_, t.stored, write_bytes t h hi ht, fun junk buffer rest => (codec_file junk buffer).enc _ rest (stored_consistent h),
    rfl, rfl, rfl, by simp [Transducer.stored], ?_⟩
  intro i x hx
  unfold Transducer.stored
  simp only [List.getElem?_map, hx, Option.map_some, hw, true_and]
  refine ⟨_, rfl, ?_⟩
  cases e : x.final with
  | false => simp [e]
  | true =>
    simp only [if_true, true_and]
    have : x.input = noSymbol := by
      have : x.input = noSymbol ∧ x.target ≠ noIndex := by simpa [Index.final] using e
      exact this.1
    refine ⟨?_, by simp, by simp⟩
    simp [Index.final, this, noIndex]

/-- Reading any file either gives a transducer that agrees with its header and that the file begins with, or an exception:
never undefined behaviour, whatever uninitialized memory contains. -/
theorem C35_exact (bs : Bytes) (junk : Nat → Nat) (buffer : Bytes) :
    (∃ t rest, t.Consistent ∧ bs = t.bytes ++ rest ∧ readTransducer junk buffer (fresh bs) = .ok (t, fresh rest)) ∨
      ((∀ t : Transducer, ¬ (t.Consistent ∧ t.bytes <+: bs)) ∧ readTransducer junk buffer (fresh bs) = .throws) := by
  cases e : readTransducer junk buffer (fresh bs) with
  | ok r =>
    obtain ⟨t, s'⟩ := r
    have hg := file_good e
    obtain ⟨_, h1, h2⟩ := (codec_file junk buffer).dec _ _ _ e hg
    exact .inl ⟨t, s'.rest, h1, h2, by rw [← hg.eq]⟩
  | throws =>
    refine .inr ⟨?_, rfl⟩
    rintro t ⟨h1, r, rfl⟩
    rw [(codec_file junk buffer).enc t r h1] at e
    cases e
  | undefined => exact absurd e (readTransducer_defined _ _ _)

/-- A written file that is cut off anywhere is refused. -/
theorem C35_truncated (t : Transducer) (h : t.Consistent) (hi : t.header.indexSize ≤ targetStart)
    (ht : t.header.targetSize ≤ targetStart) (bs : Bytes) (hb : t.write = .ok bs) (n : Nat) (hn : n < bs.length)
    (junk : Nat → Nat) (buffer : Bytes) : readTransducer junk buffer (fresh (bs.take n)) = .throws := by
  rcases C35_exact (bs.take n) junk buffer with ⟨t', rest, h1, h2, _⟩ | ⟨_, h⟩
  · exfalso
    rw [write_bytes t h hi ht] at hb
    injection hb with hb
    have k1 := (codec_file junk buffer).enc t.stored [] (stored_consistent h)
    have k2 := (codec_file junk buffer).enc t' (rest ++ bs.drop n) h1
    rw [← List.append_assoc, ← h2, List.take_append_drop] at k2
    rw [List.append_nil, hb, k2] at k1
    injection k1 with k1
    have := congrArg (fun r => r.2.rest.length) k1
    simp [fresh] at this
    omega
  · exact h

theorem noteAll_field (f : Alphabet → Nat) (name : List Char)
    (hf : ∀ (al : Alphabet) i x, f (al.note i x) = if asText x = name then i else f al) :
    ∀ (xs : List Bytes) (i : Nat) (al : Alphabet),
    ((∀ x ∈ xs, asText x ≠ name) → f (Alphabet.noteAll xs i al) = f al) ∧
      ∀ (n : Nat) x, xs[n]? = some x → asText x = name → (∀ m y, n < m → xs[m]? = some y → asText y ≠ name) →
        f (Alphabet.noteAll xs i al) = i + n
  | [], _, _ => ⟨fun _ => rfl, by simp⟩
  | y :: ys, i, al => by
    obtain ⟨h1, h2⟩ := noteAll_field f name hf ys (i + 1) (al.note i y)
    rw [Alphabet.noteAll]
    constructor
    · intro h
      rw [h1 fun x hx => h x (List.mem_cons_of_mem _ hx), hf, if_neg (h y (List.mem_cons_self ..))]
    · intro n x hn hx hl
      cases n with
      | zero =>
        simp only [List.getElem?_cons_zero, Option.some.injEq] at hn
        subst hn
        rw [h1, hf, if_pos hx]; rfl
        intro z hz
        obtain ⟨m, hm⟩ := List.getElem?_of_mem hz
        exact hl (m + 1) z (by omega) (by simpa using hm)
      | succ n =>
        rw [h2 n x (by simpa using hn) hx fun m z hm hz => hl (m + 1) z (by omega) (by simpa using hz)]
        omega

/-- The numbers of the special symbols of a transducer that was read: the number of the last symbol with that name, and 65535 if
there is none. -/
theorem C35_specials (junk : Nat → Nat) (buffer : Bytes) (s s' : In) (t : Transducer)
    (h : readTransducer junk buffer s = .ok (t, s')) :
    ∀ p ∈ [("@_UNKNOWN_SYMBOL_@", t.alphabet.unknown), ("@_DEFAULT_SYMBOL_@", t.alphabet.default),
      ("@_IDENTITY_SYMBOL_@", t.alphabet.identity)],
    ((∀ x ∈ t.alphabet.table, asText x ≠ p.1.toList) → p.2 = 65535) ∧
      ∀ (n : Nat) x, t.alphabet.table[n]? = some x → asText x = p.1.toList →
        (∀ m y, n < m → t.alphabet.table[m]? = some y → asText y ≠ p.1.toList) → p.2 = n := by
  have ha := ((codec_file junk buffer).dec _ _ _ h (file_good h)).2.1.alphabet.specials
  have hd1 : Flags.isDiacritic "@_UNKNOWN_SYMBOL_@".toList = false := by decide
  have hd2 : Flags.isDiacritic "@_DEFAULT_SYMBOL_@".toList = false := by decide
  have hd3 : Flags.isDiacritic "@_IDENTITY_SYMBOL_@".toList = false := by decide
  have e12 : "@_DEFAULT_SYMBOL_@".toList ≠ "@_UNKNOWN_SYMBOL_@".toList := by decide
  have e13 : "@_IDENTITY_SYMBOL_@".toList ≠ "@_UNKNOWN_SYMBOL_@".toList := by decide
  have e23 : "@_IDENTITY_SYMBOL_@".toList ≠ "@_DEFAULT_SYMBOL_@".toList := by decide
  intro p hp
  have key := fun f name hf => noteAll_field f name hf t.alphabet.table 0 ⟨t.alphabet.table, noSymbol, noSymbol, noSymbol⟩
  have hb : Alphabet.noteAll t.alphabet.table 0 ⟨t.alphabet.table, noSymbol, noSymbol, noSymbol⟩ = t.alphabet := ha.symm
  simp only [hb, Nat.zero_add] at key
  simp only [List.mem_cons, List.not_mem_nil, or_false] at hp
  rcases hp with rfl | rfl | rfl
  · refine key (·.unknown) _ fun al i x => ?_
    unfold Alphabet.note Basic.unknown Basic.identity
    generalize "@_UNKNOWN_SYMBOL_@".toList = a at *
    generalize "@_DEFAULT_SYMBOL_@".toList = b at *
    generalize "@_IDENTITY_SYMBOL_@".toList = c at *
    by_cases h1 : asText x = a
    · rw [h1, hd1, if_neg (by simp), if_pos rfl, if_pos rfl]
    · rw [if_neg h1, if_neg h1]
      split_ifs <;> rfl
  · refine key (·.default) _ fun al i x => ?_
    unfold Alphabet.note Basic.unknown Basic.identity
    generalize "@_UNKNOWN_SYMBOL_@".toList = a at *
    generalize "@_DEFAULT_SYMBOL_@".toList = b at *
    generalize "@_IDENTITY_SYMBOL_@".toList = c at *
    by_cases h1 : asText x = b
    · rw [h1, hd2, if_neg (by simp), if_neg e12, if_pos rfl, if_pos rfl]
    · rw [if_neg h1, if_neg h1]
      split_ifs <;> rfl
  · refine key (·.identity) _ fun al i x => ?_
    unfold Alphabet.note Basic.unknown Basic.identity
    generalize "@_UNKNOWN_SYMBOL_@".toList = a at *
    generalize "@_DEFAULT_SYMBOL_@".toList = b at *
    generalize "@_IDENTITY_SYMBOL_@".toList = c at *
    by_cases h1 : asText x = c
    · rw [h1, hd3, if_neg (by simp), if_neg e13, if_neg e23, if_pos rfl, if_pos rfl]
    · rw [if_neg h1, if_neg h1]
      split_ifs <;> rfl

/-- Two entries for the index table, one final, one transition, two symbols. -/
def someTransducer (weighted : Bool) : Transducer :=
  ⟨⟨2, 2, 3, 1, 2, 1, weighted, true, true, true, false, false, false, false, false⟩,
    Alphabet.ofTable [[64, 95, 69, 64], [97, 195, 164]],
    [⟨65535, 1065353216⟩, ⟨0, 2147483648⟩, ⟨65535, 4294967295⟩],
    [⟨1, 1, 0, if weighted then 1056964608 else 0⟩]⟩

theorem someTransducer_consistent (weighted : Bool) : (someTransducer weighted).Consistent := by
  refine ⟨⟨?_, ?_, ?_, ?_, ?_, ?_⟩, ⟨?_, ?_, ?_⟩, ?_, ?_, ?_, ?_⟩
  · cases weighted <;> decide
  · cases weighted <;> decide
  · cases weighted <;> decide
  · cases weighted <;> decide
  · cases weighted <;> decide
  · cases weighted <;> decide
  · unfold someTransducer; rw [ofTable_table]
  · unfold someTransducer; rw [ofTable_table]; rfl
  · unfold someTransducer; rw [ofTable_table]; unfold NulFree; decide
  · rfl
  · unfold Index.Fits; cases weighted <;> decide
  · rfl
  · unfold Trans.Fits; cases weighted <;> decide

example : (someTransducer true).header.indexSize ≤ targetStart ∧ (someTransducer true).header.targetSize ≤ targetStart := by decide

example : (∃ bs, (someTransducer false).write = .ok bs ∧ bs.length = 56 + 9 + 18 + 8) ∧
    (∃ bs, (someTransducer true).write = .ok bs ∧ bs.length = 56 + 9 + 18 + 12) := by
  refine ⟨⟨_, write_bytes _ (someTransducer_consistent _) (by decide) (by decide), ?_⟩,
    ⟨_, write_bytes _ (someTransducer_consistent _) (by decide) (by decide), ?_⟩⟩ <;>
  · unfold someTransducer Transducer.stored Transducer.bytes Alphabet.write; dsimp only; rw [ofTable_table]; decide +kernel

end Hfst.Ol
