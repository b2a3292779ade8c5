import Verif.Spec.ProcBuffer

/-!
# hfst-proc: the circular buffer is a stream with random access
-/
namespace Hfst.Proc
open Hfst.Basic

/-- The ring holds the last tokens of the history `h` and stands at position `p` of it. -/
structure Rep {τ : Type} (r : Ring τ) (h : List τ) (p : Nat) : Prop where
  pos : 0 < r.size
  le : p ≤ h.length
  near : h.length < p + r.size
  start : h = [] → r.cur = 0 ∧ r.last = 0
  last : h ≠ [] → r.last = (h.length + r.size - 1) % r.size + 1
  cur : h ≠ [] → r.cur = (p + r.size - 1) % r.size + 1
  buf : ∀ (i : Nat) (v : τ), h[i]? = some v → h.length ≤ i + r.size → r.buf (i % r.size) = v

theorem rep_make {τ : Type} {size : Nat} (hs : 0 < size) (d : τ) : Rep (Ring.make size d) [] 0 :=
  ⟨hs, Nat.le_refl _, by simpa [Ring.make] using hs, fun _ => ⟨rfl, rfl⟩, fun h => absurd rfl h, fun h => absurd rfl h,
    by intro i v h; simp at h⟩

/-- Adding 1 to a number below the modulus. -/
theorem mod_eq_of {a n q b : Nat} (h : a = n * q + b) (hb : b < n) : a % n = b := by
  subst h
  rw [Nat.mul_add_mod, Nat.mod_eq_of_lt hb]

theorem succ_cur (p size : Nat) (hs : 0 < size) :
    (if (p + size - 1) % size + 1 = size then 0 else (p + size - 1) % size + 1) = p % size := by
  have h1 := Nat.div_add_mod (p + size - 1) size
  have h2 := Nat.mod_lt (p + size - 1) hs
  generalize (p + size - 1) / size = q at h1
  generalize (p + size - 1) % size = b at h1 h2
  cases q with
  | zero =>
    rw [Nat.mul_zero, Nat.zero_add] at h1
    have : p = 0 := by omega
    subst this
    rw [if_pos (by omega)]
    exact (Nat.zero_mod _).symm
  | succ q =>
    have hq : size * (q + 1) = size * q + size := by rw [Nat.mul_add, Nat.mul_one]
    rw [hq] at h1
    split
    · next h =>
      refine (mod_eq_of (q := q + 1) ?_ hs).symm
      rw [hq]
      omega
    · next h => exact (mod_eq_of (q := q) (by omega) (by omega)).symm

theorem cur_succ (p size : Nat) : (p + 1 + size - 1) % size + 1 = p % size + 1 := by
  have : p + 1 + size - 1 = p + size := by omega
  rw [this, Nat.add_mod_right]

theorem isEmpty_iff {τ : Type} {r : Ring τ} {h : List τ} {p : Nat} (hr : Rep r h p) : r.isEmpty = true ↔ p = h.length := by
  unfold Ring.isEmpty
  rw [decide_eq_true_iff]
  by_cases he : h = []
  · have := hr.start he
    have hl := hr.le
    subst he
    rw [this.1, this.2]
    simp only [true_iff]
    simpa using hl
  · rw [hr.cur he, hr.last he]
    refine ⟨fun e => ?_, fun e => by rw [e]⟩
    have hn := hr.near
    have hl := hr.le
    have hp := hr.pos
    have e' : (p + r.size - 1) % r.size = (h.length + r.size - 1) % r.size := by omega
    have h1 := Nat.div_add_mod (p + r.size - 1) r.size
    have h2 := Nat.div_add_mod (h.length + r.size - 1) r.size
    rw [e'] at h1
    generalize (h.length + r.size - 1) % r.size = m at h1 h2
    generalize (p + r.size - 1) / r.size = a at h1
    generalize (h.length + r.size - 1) / r.size = b at h2
    have hab : a = b := by
      rcases Nat.lt_trichotomy a b with c | c | c
      · have : r.size * (a + 1) ≤ r.size * b := Nat.mul_le_mul_left _ c
        rw [Nat.mul_add] at this
        omega
      · exact c
      · have : r.size * (b + 1) ≤ r.size * a := Nat.mul_le_mul_left _ c
        rw [Nat.mul_add] at this
        omega
    subst hab
    omega

theorem next_rep {τ : Type} {r : Ring τ} {h : List τ} {p : Nat} (hr : Rep r h p) (hp : p < h.length) :
    h[p]? = some r.next.1 ∧ Rep r.next.2 h (p + 1) := by
  have hne : h ≠ [] := by intro e; subst e; simp at hp
  have hc : r.cur ≠ r.last := by
    intro e
    have := (isEmpty_iff hr).mp (by unfold Ring.isEmpty; rw [decide_eq_true_iff]; exact e)
    omega
  unfold Ring.next
  rw [if_pos hc]
  dsimp only
  have e1 : (if r.cur = r.size then 0 else r.cur) = p % r.size := by
    rw [hr.cur hne]
    exact succ_cur p r.size hr.pos
  rw [e1]
  have hv : h[p]? = some h[p] := List.getElem?_eq_getElem hp
  refine ⟨?_, ⟨hr.pos, hp, ?_, fun e => absurd e hne, hr.last, fun _ => ?_, hr.buf⟩⟩
  · rw [hv, hr.buf p _ hv (Nat.le_of_lt hr.near)]
  · have := hr.near
    dsimp only
    omega
  · exact (cur_succ p r.size).symm

theorem add_rep {τ : Type} {r : Ring τ} {h : List τ} (hr : Rep r h h.length) (v : τ) :
    Rep (r.add v) (h ++ [v]) (h.length + 1) := by
  have hl : (if r.last = r.size then 0 else r.last) = h.length % r.size := by
    by_cases he : h = []
    · have := (hr.start he).2
      have hp := hr.pos
      subst he
      rw [this, if_neg (by omega)]
      exact (Nat.zero_mod _).symm
    · rw [hr.last he]
      exact succ_cur h.length r.size hr.pos
  unfold Ring.add
  dsimp only
  rw [hl]
  have hp := hr.pos
  refine ⟨hp, by simp, by simp; exact hp, fun e => by simp at e, fun _ => ?_, fun _ => ?_, ?_⟩
  · rw [List.length_append, List.length_singleton]
    exact (cur_succ _ _).symm
  · exact (cur_succ _ _).symm
  · intro i w hw hi
    dsimp only at hi ⊢
    rw [List.length_append, List.length_singleton] at hi
    by_cases hil : i < h.length
    · rw [List.getElem?_append_left hil] at hw
      rw [if_neg ?_]
      · exact hr.buf i w hw (by omega)
      · intro e
        have h1 := Nat.div_add_mod i r.size
        have h2 := Nat.div_add_mod h.length r.size
        rw [e] at h1
        generalize h.length % r.size = m at h1 h2
        generalize i / r.size = a at h1
        generalize h.length / r.size = b at h2
        rcases Nat.lt_or_ge a b with c | c
        · have : r.size * (a + 1) ≤ r.size * b := Nat.mul_le_mul_left _ c
          rw [Nat.mul_add] at this
          omega
        · have : r.size * b ≤ r.size * a := Nat.mul_le_mul_left _ c
          omega
    · have hi2 : i = h.length := by
        have := (List.getElem?_eq_some_iff.mp hw).1
        rw [List.length_append, List.length_singleton] at this
        omega
      subst hi2
      rw [List.getElem?_append_right (Nat.le_refl _), Nat.sub_self] at hw
      rw [if_pos rfl]
      simpa using hw

theorem back_rep {τ : Type} {r : Ring τ} {h : List τ} {p k : Nat} (hr : Rep r h p) (hne : h ≠ []) (hk : k ≤ p)
    (hn : h.length < p - k + r.size) : ∃ r', r.back k = .ok r' ∧ Rep r' h (p - k) ∧ r'.size = r.size := by
  have hl := hr.le
  have hs := hr.pos
  have hc := hr.cur hne
  have h1 := Nat.div_add_mod (p + r.size - 1) r.size
  have h2 := Nat.mod_lt (p + r.size - 1) hs
  have key : ∀ c, c = (p - k + r.size - 1) % r.size + 1 → Rep { r with cur := c } h (p - k) := fun c e =>
    ⟨hs, by omega, hn, fun e => absurd e hne, hr.last, fun _ => e, hr.buf⟩
  unfold Ring.back
  by_cases hlt : k < r.cur
  · rw [if_pos hlt]
    refine ⟨_, rfl, key _ ?_, rfl⟩
    rw [hc] at hlt ⊢
    generalize (p + r.size - 1) / r.size = q at h1
    generalize (p + r.size - 1) % r.size = b at h1 h2 hlt
    rw [mod_eq_of (n := r.size) (q := q) (b := b - k) (by omega) (by omega)]
    omega
  · rw [if_neg hlt, if_neg (by omega)]
    refine ⟨_, rfl, key _ ?_, rfl⟩
    rw [hc] at hlt ⊢
    generalize (p + r.size - 1) / r.size = q at h1
    generalize (p + r.size - 1) % r.size = b at h1 h2 hlt
    cases q with
    | zero => rw [Nat.mul_zero] at h1; omega
    | succ q =>
      have hq : r.size * (q + 1) = r.size * q + r.size := by rw [Nat.mul_add, Nat.mul_one]
      rw [hq] at h1
      rw [mod_eq_of (n := r.size) (q := q) (b := r.size + b - k) (by omega) (by omega)]
      omega

/-- The distance to a position noted earlier. -/
theorem diff_rep {τ : Type} {r : Ring τ} {h : List τ} {p p0 : Nat} (hr : Rep r h p) (hne : h ≠ []) (h0 : p0 ≤ p)
    (hd : p < p0 + r.size) : r.diffPrev ((p0 + r.size - 1) % r.size + 1) = p - p0 := by
  have hs := hr.pos
  unfold Ring.diffPrev
  rw [hr.cur hne]
  have h1 := Nat.div_add_mod (p + r.size - 1) r.size
  have h2 := Nat.mod_lt (p + r.size - 1) hs
  have h3 := Nat.div_add_mod (p0 + r.size - 1) r.size
  have h4 := Nat.mod_lt (p0 + r.size - 1) hs
  generalize (p + r.size - 1) % r.size = b at *
  generalize (p0 + r.size - 1) % r.size = b0 at *
  generalize (p + r.size - 1) / r.size = q at *
  generalize (p0 + r.size - 1) / r.size = q0 at *
  have hq : q = q0 ∨ q = q0 + 1 := by
    rcases Nat.lt_trichotomy q q0 with c | c | c
    · have : r.size * (q + 1) ≤ r.size * q0 := Nat.mul_le_mul_left _ c
      rw [Nat.mul_add] at this
      omega
    · exact .inl c
    · rcases Nat.lt_or_ge (q0 + 1) q with d | d
      · have : r.size * (q0 + 1 + 1) ≤ r.size * q := Nat.mul_le_mul_left _ d
        rw [Nat.mul_add, Nat.mul_add] at this
        omega
      · omega
  rcases hq with e | e
  · subst e
    rw [if_pos (by omega)]
    omega
  · subst e
    rw [Nat.mul_add] at h1
    rw [if_neg (by omega)]
    omega

/-- The source stands at position `p` of `whole`, of which `h` has been read. -/
structure At {τ : Type} (s : Src τ) (whole h : List τ) (p : Nat) : Prop where
  rep : Rep s.ring h p
  all : h ++ s.rest = whole

theorem getToken_at {τ : Type} {s : Src τ} {whole h : List τ} {p : Nat} (hs : At s whole h p) :
    s.getToken.1 = whole[p]? ∧
    ∃ h', At s.getToken.2 whole h' (if p < whole.length then p + 1 else p) ∧ s.getToken.2.ring.size = s.ring.size ∧
      h'.length = max h.length (if p < whole.length then p + 1 else p) := by
  have hl := hs.rep.le
  have hw : whole.length = h.length + s.rest.length := by rw [← hs.all, List.length_append]
  unfold Src.getToken
  by_cases hp : p < h.length
  · have he : s.ring.isEmpty = false := by
      cases e : s.ring.isEmpty with
      | false => rfl
      | true => have := (isEmpty_iff hs.rep).mp e; omega
    rw [if_pos he]
    have hn := next_rep hs.rep hp
    refine ⟨?_, h, ?_, ?_, ?_⟩
    · dsimp only
      rw [← hs.all, List.getElem?_append_left hp, hn.1]
    · rw [if_pos (by omega)]
      exact ⟨hn.2, hs.all⟩
    · dsimp only
      unfold Ring.next
      split <;> rfl
    · rw [if_pos (by omega)]
      omega
  · have hpe : p = h.length := by omega
    have he : s.ring.isEmpty = true := (isEmpty_iff hs.rep).mpr hpe
    rw [he, if_neg (by simp)]
    cases hr : s.rest with
    | nil =>
      rw [hr] at hw
      rw [List.length_nil] at hw
      refine ⟨?_, h, ?_, rfl, ?_⟩
      · dsimp only
        rw [List.getElem?_eq_none (by omega)]
      · rw [if_neg (by omega)]
        exact hs
      · rw [if_neg (by omega)]
        omega
    | cons t rest =>
      rw [hr, List.length_cons] at hw
      have hall := hs.all
      rw [hr] at hall
      refine ⟨?_, h ++ [t], ?_, rfl, ?_⟩
      · dsimp only
        rw [← hall, hpe, List.getElem?_append_right (Nat.le_refl _), Nat.sub_self]
        rfl
      · rw [if_pos (by omega)]
        subst hpe
        refine ⟨add_rep hs.rep t, ?_⟩
        dsimp only
        rw [List.append_assoc]
        exact hall
      · rw [if_pos (by omega), List.length_append, List.length_singleton]
        omega

theorem before_at {τ : Type} {whole h : List τ} {s : Src τ} {p k : Nat} (hs : At s whole h p) (hk : 0 < k) (hkp : k ≤ p)
    (hn : h.length + k ≤ p + s.ring.size) (hc : k ≤ s.ring.cur) :
    ∃ t, s.ring.before k = .ok t ∧ whole[p - k]? = some t := by
  have hl := hs.rep.le
  have hne : h ≠ [] := by intro e; subst e; simp at hl; omega
  have hcur := hs.rep.cur hne
  have hpos := hs.rep.pos
  have h1 := Nat.div_add_mod (p + s.ring.size - 1) s.ring.size
  have h2 := Nat.mod_lt (p + s.ring.size - 1) hpos
  unfold Ring.before
  rw [if_neg (by omega)]
  refine ⟨_, rfl, ?_⟩
  have hv : h[p - k]? = some h[p - k] := List.getElem?_eq_getElem (by omega)
  have hb := hs.rep.buf (p - k) _ hv (by omega)
  have hm : (p - k) % s.ring.size = s.ring.cur - k := by
    rw [hcur] at hc ⊢
    generalize (p + s.ring.size - 1) / s.ring.size = q at h1
    generalize (p + s.ring.size - 1) % s.ring.size = b at h1 h2 hc
    cases q with
    | zero => rw [Nat.mul_zero] at h1; omega
    | succ q =>
      have hq : s.ring.size * (q + 1) = s.ring.size * q + s.ring.size := by rw [Nat.mul_add, Nat.mul_one]
      rw [hq] at h1
      exact mod_eq_of (q := q) (by omega) (by omega)
  rw [← hm, hb, ← hs.all, List.getElem?_append_left (by omega)]
  exact hv

theorem run_at {τ : Type} {whole : List τ} {size : Nat} : ∀ (ops : List StreamOp) (s : Src τ) (h : List τ) (p m m' : Nat)
    (o : Option Nat), At s whole h p → s.ring.size = size →
    (∀ q, o = some q → q = m' ∧ m = (q + size - 1) % size + 1 ∧ h ≠ []) →
    Within size whole.length ops p h.length o → Src.run ops m s = .ok (listRun whole ops p m')
  | [], _, _, _, _, _, _, _, _, _, _ => rfl
  | .read :: ops, s, h, p, m, m', o, hs, hz, ho, hw => by
    obtain ⟨e1, h', a1, z1, l1⟩ := getToken_at hs
    have hw' : Within size whole.length ops (if p < whole.length then p + 1 else p) h'.length o := by
      rw [l1]
      exact hw
    have ih := run_at ops _ h' _ m m' o a1 (z1.trans hz) (fun q hq => ⟨(ho q hq).1, (ho q hq).2.1, by
      intro e
      have := List.length_pos_iff.mpr (ho q hq).2.2
      rw [e, List.length_nil] at l1
      omega⟩) hw'
    rw [Src.run, ih, listRun, e1]
    rfl
  | .back k :: ops, s, h, p, m, m', o, hs, hz, ho, hw => by
    obtain ⟨hf, hk, hn, hw⟩ := hw
    have hne : h ≠ [] := by intro e; subst e; simp at hf
    obtain ⟨r', er, rr, rz⟩ := back_rep hs.rep hne hk (by rw [hz]; exact hn)
    have ih := run_at ops ⟨r', s.rest⟩ h (p - k) m m' o ⟨rr, hs.all⟩ (rz.trans hz) ho hw
    rw [Src.run, Src.moveBack, er]
    exact ih
  | .look k :: ops, s, h, p, m, m', o, hs, hz, ho, hw => by
    obtain ⟨hk, hkp, hn, hc, hw⟩ := hw
    have hl := hs.rep.le
    have hne : h ≠ [] := by intro e; subst e; simp at hl; omega
    have hcur := hs.rep.cur hne
    have hpp : p + size - 1 = p - 1 + size := by omega
    rw [hz, hpp, Nat.add_mod_right] at hcur
    obtain ⟨t, e1, e2⟩ := before_at hs hk hkp (by rw [hz]; exact hn) (by rw [hcur]; exact hc)
    have ih := run_at ops s h p m m' o hs hz ho hw
    rw [Src.run, e1]
    show (Src.run ops m s).bind _ = _
    rw [ih, listRun, e2]
    rfl
  | .note :: ops, s, h, p, m, m', o, hs, hz, ho, hw => by
    have hne : h ≠ [] := by intro e; subst e; simp [Within] at hw
    rw [Src.run, listRun]
    refine run_at ops s h p _ p (some p) hs hz (fun q hq => ?_) hw.2
    cases hq
    refine ⟨rfl, ?_, hne⟩
    rw [hs.rep.cur hne, hz]
  | .diff :: ops, s, h, p, m, m', o, hs, hz, ho, hw => by
    obtain ⟨⟨q, eq, h1, h2⟩, hw⟩ := hw
    obtain ⟨rfl, hm, hne⟩ := ho q eq
    have ih := run_at ops s h p m q o hs hz ho hw
    rw [Src.run, ih, listRun, hm, ← hz, diff_rep hs.rep hne h1 (by rw [hz]; exact h2)]
    rfl

/-- A fresh stream over the tokens `whole` (tools/src/hfst-proc/tokenizer.cc:21-25). -/
def Src.fresh {τ : Type} (size : Nat) (d : τ) (whole : List τ) : Src τ := ⟨Ring.make size d, whole⟩

theorem fresh_at {τ : Type} {size : Nat} (hs : 0 < size) (d : τ) (whole : List τ) : At (Src.fresh size d whole) whole [] 0 :=
  ⟨rep_make hs d, rfl⟩

/-- C83: as long as the calls stay within the size of the buffer, reading, going back, looking back and measuring the distance to a
noted position work as on a list of all tokens, whatever the order of the calls and however often the buffer has gone round. -/
theorem C83_stream_partial {τ : Type} (whole : List τ) (d : τ) (size : Nat) (hs : 0 < size) (ops : List StreamOp)
    (hw : Within size whole.length ops 0 0 none) : Src.run ops 0 (Src.fresh size d whole) = .ok (listRun whole ops 0 0) :=
  run_at ops _ [] 0 0 0 none (fresh_at hs d whole) rfl (fun q hq => by cases hq) hw

example : Src.run [.read, .read, .note, .read, .read, .diff, .back 2, .read, .look 1, .read, .read] 0
      (Src.fresh 3 0 [1, 2, 3, 4]) =
    .ok [.token (some 1), .token (some 2), .token (some 3), .token (some 4), .count 2, .token (some 3), .elem 3,
      .token (some 4), .token none] :=
  C83_stream_partial [1, 2, 3, 4] 0 3 (by decide) _ (by simp [Within])

theorem reads_at {τ : Type} {whole : List τ} {size : Nat} (ops : List StreamOp) (m : Nat) : ∀ (n : Nat) (s : Src τ) (h : List τ),
    At s whole h h.length → s.ring.size = size → h.length + n ≤ whole.length →
    ∃ (s' : Src τ) (h' : List τ), At s' whole h' h'.length ∧ s'.ring.size = size ∧ h'.length = h.length + n ∧
      Src.run (List.replicate n .read ++ ops) m s =
        (Src.run ops m s').bind fun l => .ok ((List.range' h.length n).map (fun i => .token whole[i]?) ++ l)
  | 0, s, h, hs, hz, _ => ⟨s, h, hs, hz, rfl, by
    rw [List.replicate_zero, List.nil_append]
    cases Src.run ops m s <;> rfl⟩
  | n + 1, s, h, hs, hz, hn => by
    obtain ⟨e1, h', a1, z1, l1⟩ := getToken_at hs
    rw [if_pos (by omega)] at a1 l1
    have l1' : h'.length = h.length + 1 := by omega
    rw [← l1'] at a1
    obtain ⟨s2, h2, a2, z2, l2, r2⟩ := reads_at ops m n _ h' a1 (z1.trans hz) (by omega)
    refine ⟨s2, h2, a2, z2, by omega, ?_⟩
    rw [List.replicate_succ, List.cons_append, Src.run, r2, e1, List.range'_succ, List.map_cons, l1']
    cases Src.run ops m s2 <;> rfl

/-- C83, where it goes wrong: after reading as many tokens as the buffer holds, going back by all of them does nothing at all.  The
next read goes on behind them, although every one of them is still in the buffer. -/
theorem C83_whole_violated {τ : Type} (whole : List τ) (d : τ) (size : Nat) (hs : 0 < size) (hl : size ≤ whole.length) :
    Src.run (List.replicate size .read ++ [.back size, .read]) 0 (Src.fresh size d whole) =
      .ok ((List.range' 0 size).map (fun i => .token whole[i]?) ++ [.token whole[size]?]) := by
  obtain ⟨s, h, a, z, l, r⟩ := reads_at (size := size) [.back size, .read] 0 size (Src.fresh size d whole) []
    (fresh_at hs d whole) rfl (by rw [List.length_nil]; omega)
  rw [r]
  rw [List.length_nil, Nat.zero_add] at l
  have hne : h ≠ [] := by intro e; subst e; simp at l; omega
  have hc := a.rep.cur hne
  rw [z, l] at hc
  have hm : (size + size - 1) % size + 1 = size := by
    rw [mod_eq_of (n := size) (q := 1) (b := size - 1) (by omega) (by omega)]
    omega
  rw [hm] at hc
  have hb : s.ring.back size = .ok s.ring := by
    unfold Ring.back
    rw [if_neg (by omega), if_neg (by omega)]
    cases hr : s.ring with
    | mk a b c d =>
      rw [hr] at z hc
      dsimp only at z hc ⊢
      rw [z, hc, Nat.sub_self, Nat.sub_zero]
  have hm : s.moveBack size = .ok s := by
    unfold Src.moveBack
    rw [hb]
    rfl
  have hf : Src.run [.back size, .read] 0 s = .ok [.token whole[size]?] := by
    rw [Src.run, hm]
    show Src.run [.read] 0 s = _
    rw [Src.run, (getToken_at a).1, l]
    rfl
  rw [hf]
  rfl

example : Src.run [.read, .read, .back 2, .read] 0 (Src.fresh 2 0 [1, 2, 3]) =
    .ok [.token (some 1), .token (some 2), .token (some 3)] :=
  C83_whole_violated [1, 2, 3] 0 2 (by decide) (by decide)

example : listRun [1, 2, 3] [.read, .read, .back 2, .read] 0 0 = [.token (some 1), .token (some 2), .token (some 1)] := by decide

/-- C83, where it goes wrong: the token before the last one is still in the buffer, but right after the buffer has gone round it
cannot be looked at: the index is before the start of the array. -/
theorem C83_look_violated {τ : Type} (whole : List τ) (d : τ) (size : Nat) (hs : 0 < size) (hl : size < whole.length) :
    Src.run (List.replicate (size + 1) .read ++ [.look 2]) 0 (Src.fresh size d whole) = .undefined := by
  obtain ⟨s, h, a, z, l, r⟩ := reads_at (size := size) [.look 2] 0 (size + 1) (Src.fresh size d whole) []
    (fresh_at hs d whole) rfl (by rw [List.length_nil]; omega)
  rw [r]
  rw [List.length_nil, Nat.zero_add] at l
  have hne : h ≠ [] := by intro e; subst e; simp at l
  have hc := a.rep.cur hne
  rw [z, l] at hc
  have hm : (size + 1 + size - 1) % size = 0 := mod_eq_of (q := 2) (by omega) hs
  rw [hm] at hc
  have hb : s.ring.before 2 = .undefined := by
    unfold Ring.before
    rw [if_pos (by omega)]
  rw [Src.run, hb]
  rfl

example : Src.run [.read, .read, .read, .look 2] 0 (Src.fresh 2 0 [1, 2, 3]) = .undefined :=
  C83_look_violated [1, 2, 3] 0 2 (by decide) (by decide)

end Hfst.Proc
