import Verif.Spec.ProcAnalysis
import Verif.Props.ProcBuffer
import Mathlib.Order.Basic
import Mathlib.Data.Nat.Find

/-!
# hfst-proc: the analysis loop divides the text into longest words
-/
namespace Hfst.Proc
open Hfst.Basic

/-- What the theorem asks of the transducer and the text.
* No token is a reserved character.
* No word of the transducer starts with a token that is not alphabetic.
* The text ends with a token that is not alphabetic and on which every lookup comes to an end.
* No lookup follows as many tokens as the buffer holds.
* No word of the transducer found in the text ends where the buffer goes round. -/
structure Fits {τ φ : Type} (M : Machine τ φ) (size : Nat) (text : List τ) : Prop where
  two : 2 ≤ size
  plain : ∀ t ∈ text, M.reserved t = false
  begins : ∀ t ∈ text, M.alpha t = false → M.active (M.step M.init t) = false
  ends : ∃ body z, text = body ++ [z] ∧ M.alpha z = false ∧ ∀ s, M.active (M.step s z) = false
  short : ∀ q n, Follows M (text.drop q) n → n < size
  clear : ∀ q n k, Follows M (text.drop q) n → 1 ≤ k → k ≤ n → M.final (after M (text.drop q) k) = true → (q + k) % size ≠ 0

section
variable {τ φ : Type} {M : Machine τ φ} {size : Nat} {text : List τ}

theorem after_succ (w : List τ) (k : Nat) {t : τ} (h : w[k]? = some t) : after M w (k + 1) = M.step (after M w k) t := by
  unfold after
  rw [List.take_add_one, h]
  simp

theorem after_zero (w : List τ) : after M w 0 = M.init := by simp [after]

theorem takeWhile_all {p : τ → Bool} : ∀ {l : List τ} {x : τ}, x ∈ l.takeWhile p → p x = true
  | [], x, h => by cases h
  | y :: l, x, h => by
    rw [List.takeWhile_cons] at h
    split at h
    · next hy =>
      rcases List.mem_cons.mp h with e | e
      · rw [e]; exact hy
      · exact takeWhile_all e
    · cases h

/-- Every place in the text is followed for some number of tokens. -/
theorem follows_exists (hf : Fits M size text) {q : Nat} (hq : q < text.length) : ∃ n, Follows M (text.drop q) n := by
  obtain ⟨body, z, e, _, hz⟩ := hf.ends
  have hlen : (text.drop q).length = text.length - q := List.length_drop
  have hlast : (text.drop q)[text.length - q - 1]? = some z := by
    rw [List.getElem?_drop, e]
    have : q + ((body ++ [z]).length - q - 1) = body.length := by
      rw [← e]
      have : text.length = body.length + 1 := by rw [e]; simp
      omega
    rw [this]
    simp
  have hend : M.active (after M (text.drop q) (text.length - q - 1 + 1)) = false := by
    rw [after_succ _ _ hlast]
    exact hz _
  classical
  let P := fun n => n < (text.drop q).length ∧ M.active (after M (text.drop q) (n + 1)) = false
  have hP : ∃ n, P n := ⟨text.length - q - 1, by omega, hend⟩
  refine ⟨Nat.find hP, (Nat.find_spec hP).1, ?_, (Nat.find_spec hP).2⟩
  intro j h1 h2
  have := Nat.find_min hP (m := j - 1) (by omega)
  have hl := (Nat.find_spec hP).1
  by_contra hc
  refine this ⟨by omega, ?_⟩
  have hj : j - 1 + 1 = j := by omega
  rw [hj]
  simpa using hc

/-- What has been noted about the words that end before token `j`. -/
def Noted (M : Machine τ φ) (size : Nat) (w : List τ) (q j : Nat) (forms : List φ) (loc : Nat) : Prop :=
  (forms = [] ∧ ∀ k, k < j → ¬ Ends M w k) ∨
    ∃ k, k < j ∧ Ends M w k ∧ (∀ k', k' < j → Ends M w k' → k' ≤ k) ∧ forms = M.forms (after M w k) (w.take k) ∧
      loc = (q + k) % size

/-- In the middle of a word: `j` tokens have been read since position `q`. -/
structure Mid (M : Machine τ φ) (size : Nat) (text : List τ) (q j : Nat) (out : List (Event τ φ)) (c : Conf M) : Prop where
  at' : ∃ h, At c.src text h (q + j) ∧ h.length < q + size
  size_eq : c.src.ring.size = size
  st : c.st = after M (text.drop q) j
  surf : c.surf = (text.drop q).take j
  noted : Noted M size (text.drop q) q j c.forms c.loc
  out_eq : c.out = out

/-- A token has been read and the analyses before it noted. -/
structure Read (M : Machine τ φ) (size : Nat) (text : List τ) (q j : Nat) (out : List (Event τ φ)) (c : Conf M) : Prop where
  at' : ∃ h, At c.src text h (q + j + 1) ∧ h.length ≤ q + size ∧ h.length < q + j + 1 + size ∧ (q + j + 1 < q + size → h.length < q + size)
  size_eq : c.src.ring.size = size
  st : c.st = after M (text.drop q) j
  surf : c.surf = (text.drop q).take j
  noted : Noted M size (text.drop q) q (j + 1) c.forms c.loc
  out_eq : c.out = out

theorem noted_skip {w : List τ} {q j : Nat} {forms : List φ} {loc : Nat} (h : Noted M size w q j forms loc) (hn : ¬ Ends M w j) :
    Noted M size w q (j + 1) forms loc := by
  rcases h with ⟨h1, h2⟩ | ⟨k, h1, h2, h3, h4, h5⟩
  · refine .inl ⟨h1, fun k hk => ?_⟩
    rcases Nat.lt_or_ge k j with c | c
    · exact h2 k c
    · have : k = j := by omega
      subst this
      exact hn
  · refine .inr ⟨k, by omega, h2, fun k' hk' he => ?_, h4, h5⟩
    rcases Nat.lt_or_ge k' j with c | c
    · exact h3 k' c he
    · have : k' = j := by omega
      subst this
      exact absurd he hn

theorem cur_at {s : Src τ} {h : List τ} {p : Nat} (hs : At s text h (p + 1)) : s.ring.cur = p % s.ring.size + 1 := by
  have hl := hs.rep.le
  have hne : h ≠ [] := by intro e; subst e; simp at hl
  rw [hs.rep.cur hne, cur_succ]

theorem read_step (hf : Fits M size text) {q j n : Nat} {out : List (Event τ φ)} {c : Conf M} (hm : Mid M size text q j out c)
    (hn : Follows M (text.drop q) n) (hj : j ≤ n) : ∃ t c', (text.drop q)[j]? = some t ∧ c.src.getToken.1 = some t ∧
      record { c with src := c.src.getToken.2 } = .ok c' ∧ Read M size text q j out c' := by
  obtain ⟨h, ha, hfar⟩ := hm.at'
  have hlen : (text.drop q).length = text.length - q := List.length_drop
  have hjl : j < (text.drop q).length := Nat.lt_of_le_of_lt hj hn.1
  have hpl : q + j < text.length := by omega
  have htj : (text.drop q)[j]? = some (text.drop q)[j] := List.getElem?_eq_getElem hjl
  obtain ⟨e1, h', a1, z1, l1⟩ := getToken_at ha
  rw [if_pos hpl] at a1 l1
  have hnsize := hf.short q n hn
  have h2 := hf.two
  have hzz : c.src.getToken.2.ring.size = size := z1.trans hm.size_eq
  have hfar' : ∃ h, At c.src.getToken.2 text h (q + j + 1) ∧ h.length ≤ q + size ∧ h.length < q + j + 1 + size ∧
      (q + j + 1 < q + size → h.length < q + size) := ⟨h', a1, by omega, by omega, by omega⟩
  refine ⟨(text.drop q)[j], ?_⟩
  have hget : c.src.getToken.1 = some (text.drop q)[j] := by
    rw [e1, ← List.getElem?_drop, htj]
  unfold record
  dsimp only
  by_cases hc : c.surf ≠ [] ∧ M.final c.st = true
  · rw [if_pos hc]
    have hj1 : 1 ≤ j := by
      rcases Nat.eq_zero_or_pos j with e | e
      · subst e
        exact absurd (by rw [hm.surf]; simp) hc.1
      · exact e
    have hfin : M.final (after M (text.drop q) j) = true := by rw [← hm.st]; exact hc.2
    have hclear := hf.clear q n j hn hj1 hj hfin
    have hcur := cur_at a1
    rw [hzz] at hcur
    obtain ⟨a, ea, ga⟩ := before_at a1 (k := 2) (by omega) (by omega) (by rw [hzz]; omega) (by rw [hcur]; omega)
    obtain ⟨b, eb, gb⟩ := before_at a1 (k := 1) (by omega) (by omega) (by rw [hzz]; omega) (by rw [hcur]; omega)
    have ga' : (text.drop q)[j - 1]? = some a := by
      rw [List.getElem?_drop, ← ga]
      congr 1
      omega
    have gb' : (text.drop q)[j]? = some b := by
      rw [List.getElem?_drop, ← gb]
      congr 1
    have hbound : boundary M c.src.getToken.2.ring = .ok (!(M.alpha a) || !(M.alpha b)) := by
      unfold boundary
      rw [ea]
      show (if M.alpha a = false then _ else _) = _
      cases hal : M.alpha a with
      | false => rfl
      | true =>
        rw [if_neg (by simp), eb]
        rfl
    rw [hbound]
    show ∃ c', _ ∧ _ ∧ (if (!(M.alpha a) || !(M.alpha b)) = true then _ else _) = Outcome.ok c' ∧ _
    by_cases hb : (!(M.alpha a) || !(M.alpha b)) = true
    · rw [if_pos hb]
      have hends : Ends M (text.drop q) j := by
        refine ⟨hfin, j - 1, a, b, by omega, ga', gb', ?_⟩
        simpa using hb
      refine ⟨_, htj, hget, rfl, ⟨hfar', hzz, hm.st, hm.surf, .inr ⟨j, by omega, hends, fun k' hk' _ => by omega, ?_, ?_⟩, hm.out_eq⟩⟩
      · dsimp only
        rw [hm.st, hm.surf]
      · dsimp only
        rw [hcur]
        omega
    · rw [if_neg hb]
      refine ⟨_, htj, hget, rfl, ⟨hfar', hzz, hm.st, hm.surf, noted_skip hm.noted ?_, hm.out_eq⟩⟩
      rintro ⟨_, i, a', b', hi, ga2, gb2, hab⟩
      have hi' : i = j - 1 := by omega
      subst hi'
      rw [ga'] at ga2
      rw [gb'] at gb2
      cases ga2
      cases gb2
      apply hb
      rcases hab with e | e <;> simp [e]
  · rw [if_neg hc]
    refine ⟨_, htj, hget, rfl, ⟨hfar', hzz, hm.st, hm.surf, noted_skip hm.noted ?_, hm.out_eq⟩⟩
    rintro ⟨hfin, i, a', b', hi, _⟩
    refine hc ⟨?_, by rw [hm.st]; exact hfin⟩
    rw [hm.surf]
    intro e
    have := congrArg List.length e
    rw [List.length_take, List.length_nil] at this
    omega

theorem plain_at (hf : Fits M size text) {q j : Nat} {t : τ} (h : (text.drop q)[j]? = some t) : M.reserved t = false :=
  hf.plain t (List.mem_of_mem_drop (List.mem_of_getElem? h))

theorem active_step (hf : Fits M size text) {q j n : Nat} {out : List (Event τ φ)} {c : Conf M} (hm : Mid M size text q j out c)
    (hn : Follows M (text.drop q) n) (hj : j < n) : ∃ c', round c = .ok (.inl c') ∧ Mid M size text q (j + 1) out c' := by
  obtain ⟨t, c1, ht, hg, hr, h1⟩ := read_step hf hm hn (Nat.le_of_lt hj)
  have hp := plain_at hf ht
  have hst : M.step c1.st t = after M (text.drop q) (j + 1) := by rw [after_succ _ _ ht, h1.st]
  have hact : M.active (M.step c1.st t) = true := by
    rw [hst]
    exact hn.2.1 (j + 1) (by omega) hj
  refine ⟨{ c1 with st := M.step c1.st t, surf := c1.surf ++ [t] }, ?_, ?_⟩
  · unfold round
    rw [show c.src.getToken = (some t, c.src.getToken.2) from by rw [← hg]]
    dsimp only
    rw [hp, if_neg (by simp), hr]
    show (if M.active (M.step c1.st t) = true then _ else _) = _
    rw [if_pos hact]
  · obtain ⟨h, a, f1, f2, f3⟩ := h1.at'
    have hs := hf.short q n hn
    refine ⟨⟨h, a, f3 (by omega)⟩, h1.size_eq, hst, ?_, h1.noted, h1.out_eq⟩
    dsimp only
    rw [h1.surf, List.take_add_one, ht]
    rfl

theorem active_steps (hf : Fits M size text) {q n : Nat} {out : List (Event τ φ)} (hn : Follows M (text.drop q) n) :
    ∀ (j : Nat) (c : Conf M), Mid M size text q 0 out c → j ≤ n →
      ∃ c', (∀ m, analyse (m + j) c = analyse m c') ∧ Mid M size text q j out c'
  | 0, c, hm, _ => ⟨c, fun _ => rfl, hm⟩
  | j + 1, c, hm, hj => by
    obtain ⟨c1, r1, m1⟩ := active_steps hf hn j c hm (by omega)
    obtain ⟨c2, r2, m2⟩ := active_step hf m1 hn hj
    refine ⟨c2, fun m => ?_, m2⟩
    have : m + (j + 1) = (m + 1) + j := by omega
    rw [this, r1, analyse, r2]
    rfl

theorem wordRest_at {alpha : τ → Bool} : ∀ (a : List τ) (fuel : Nat) (s : Src τ) (h : List τ) (p : Nat) (surf : List τ) (b : τ)
    (rest : List τ), At s text h p → text.drop p = a ++ b :: rest → (∀ x ∈ a, alpha x = true) → alpha b = false →
    a.length < fuel →
    ∃ s' h', wordRest alpha fuel s surf = (s', surf ++ a) ∧ At s' text h' (p + a.length + 1) ∧ s'.ring.size = s.ring.size ∧
      h'.length = max h.length (p + a.length + 1)
  | [], fuel + 1, s, h, p, surf, b, rest, hs, hd, ha, hb, _ => by
    obtain ⟨e1, h', a1, z1, l1⟩ := getToken_at hs
    have hpl : p < text.length := by
      have := congrArg List.length hd
      simp at this
      omega
    rw [if_pos hpl] at a1 l1
    have hbp : text[p]? = some b := by
      have := List.getElem?_drop (xs := text) (i := p) (j := 0)
      rw [hd, Nat.add_zero] at this
      rw [← this]
      rfl
    rw [hbp] at e1
    refine ⟨s.getToken.2, h', ?_, a1, z1, l1⟩
    rw [wordRest, show s.getToken = (some b, s.getToken.2) from by rw [← e1]]
    dsimp only
    rw [hb, if_neg (by simp), List.append_nil]
  | x :: a, fuel + 1, s, h, p, surf, b, rest, hs, hd, ha, hb, hf => by
    obtain ⟨e1, h', a1, z1, l1⟩ := getToken_at hs
    have hpl : p < text.length := by
      have := congrArg List.length hd
      simp at this
      omega
    rw [if_pos hpl] at a1 l1
    have hbp : text[p]? = some x := by
      have := List.getElem?_drop (xs := text) (i := p) (j := 0)
      rw [hd, Nat.add_zero] at this
      rw [← this]
      rfl
    rw [hbp] at e1
    have hd' : text.drop (p + 1) = a ++ b :: rest := by
      rw [← List.drop_drop, hd]
      rfl
    obtain ⟨s2, h2, r2, a2, z2, l2⟩ := wordRest_at a fuel _ h' (p + 1) (surf ++ [x]) b rest a1 hd'
      (fun y hy => ha y (List.mem_cons_of_mem _ hy)) hb (by simpa using hf)
    refine ⟨s2, h2, ?_, ?_, z2.trans z1, ?_⟩
    · rw [wordRest, show s.getToken = (some x, s.getToken.2) from by rw [← e1]]
      dsimp only
      rw [ha x (List.mem_cons_self ..), if_pos rfl, r2, List.append_assoc]
      rfl
    · rw [List.length_cons]
      have : p + (a.length + 1) + 1 = p + 1 + a.length + 1 := by omega
      rw [this]
      exact a2
    · rw [List.length_cons]
      omega

/-- Between two words, at position `q`. -/
def Start (M : Machine τ φ) (size : Nat) (text : List τ) (q : Nat) (out : List (Event τ φ)) (c : Conf M) : Prop :=
  Mid M size text q 0 out c ∧ c.forms = []

theorem start_reset {q : Nat} {h : List τ} {c : Conf M} {s : Src τ} {out es : List (Event τ φ)} (ha : At s text h q)
    (hz : s.ring.size = size) (ho : c.out = out) : Start M size text q (out ++ es) (c.reset s es) := by
  have hn := ha.rep.near
  rw [hz] at hn
  refine ⟨⟨⟨h, ha, hn⟩, hz, ?_, ?_, .inl ⟨rfl, fun k hk => by omega⟩, ?_⟩, rfl⟩
  · exact (after_zero _).symm
  · simp [Conf.reset]
  · unfold Conf.reset
    dsimp only
    rw [ho]

theorem moveBack_at {s : Src τ} {h : List τ} {p k : Nat} (ha : At s text h p) (hne : 0 < p) (hk : k ≤ p)
    (hn : h.length < p - k + s.ring.size) : ∃ s', s.moveBack k = .ok s' ∧ At s' text h (p - k) ∧ s'.ring.size = s.ring.size := by
  have hl := ha.rep.le
  have hne : h ≠ [] := by intro e; subst e; simp at hl; omega
  obtain ⟨r', e, hr, hz⟩ := back_rep ha.rep hne hk hn
  refine ⟨⟨r', s.rest⟩, ?_, ⟨hr, ha.all⟩, hz⟩
  unfold Src.moveBack
  rw [e]
  rfl

/-- The unknown word that starts at `q`. -/
theorem unknown_step (hf : Fits M size text) {q n : Nat} {out : List (Event τ φ)} {c : Conf M} (hm : Read M size text q n out c)
    (hn : Follows M (text.drop q) n) {t : τ} (ht : (text.drop q)[n]? = some t) (h0 : n = 0 → M.alpha t = true) :
    ∃ c' u, unknownWord c t = .ok c' ∧ u = (text.drop q).take n ++ ((text.drop q).drop n).takeWhile M.alpha ∧
      text.drop q = u ++ text.drop (q + u.length) ∧ 0 < u.length ∧
      Start M size text (q + u.length) (out ++ [.unknown u]) c' := by
  obtain ⟨h, ha, f1, f2, f3⟩ := hm.at'
  have hlen : (text.drop q).length = text.length - q := List.length_drop
  have hnl := hn.1
  have hs2 := hf.two
  have hns := hf.short q n hn
  -- the first token is alphabetic
  have hfirst : ∀ x, (text.drop q)[0]? = some x → 0 < n → M.alpha x = true := by
    intro x hx hpos
    by_contra hc
    have hact := hn.2.1 1 (Nat.le_refl _) hpos
    rw [after_succ _ _ hx, after_zero] at hact
    have := hf.begins x (List.mem_of_mem_drop (List.mem_of_getElem? hx)) (by simpa using hc)
    rw [this] at hact
    cases hact
  have hdropn : (text.drop q).drop n = t :: text.drop (q + n + 1) := by
    rw [List.drop_drop]
    have hlt : q + n < text.length := by omega
    rw [List.drop_eq_getElem_cons hlt]
    congr 1
    have := ht
    rw [List.getElem?_drop, List.getElem?_eq_getElem hlt] at this
    exact Option.some.inj this
  have hcat : ∀ u v, (text.drop q) = u ++ v → text.drop q = u ++ text.drop (q + u.length) := by
    intro u v e
    rw [← List.drop_drop, e, List.drop_left]
  have htakelen : ((text.drop q).take n).length = n := by rw [List.length_take]; omega
  unfold unknownWord
  cases hat : M.alpha t with
  | true =>
    -- the rest of the word
    obtain ⟨body, z, ez, hz, _⟩ := hf.ends
    have htl : text.length = body.length + 1 := by rw [ez]; simp
    have hlast : q + n + 1 < text.length := by
      rcases Nat.lt_or_ge (q + n + 1) text.length with c | c
      · exact c
      · exfalso
        have hqn : q + n = body.length := by omega
        rw [List.getElem?_drop, hqn, ez] at ht
        simp at ht
        subst ht
        rw [hz] at hat
        cases hat
    have hmem : z ∈ text.drop (q + n + 1) := by
      rw [ez, List.drop_append_of_le_length (by omega)]
      simp
    have hdw : (text.drop (q + n + 1)).dropWhile M.alpha ≠ [] := by
      intro e
      have h1 := List.takeWhile_append_dropWhile (p := M.alpha) (l := text.drop (q + n + 1))
      rw [e, List.append_nil] at h1
      rw [← h1] at hmem
      have := takeWhile_all hmem
      rw [hz] at this
      cases this
    obtain ⟨b, rest, hbr⟩ := List.exists_cons_of_ne_nil hdw
    have hb : M.alpha b = false := by
      have hh := List.head_dropWhile_not M.alpha hdw
      rw [Bool.eq_false_iff]
      intro hc
      simp only [hbr, List.head_cons, hc] at hh
      cases hh
    have hsplit : text.drop (q + n + 1) = (text.drop (q + n + 1)).takeWhile M.alpha ++ b :: rest := by
      rw [← hbr]
      exact List.takeWhile_append_dropWhile.symm
    generalize hA : (text.drop (q + n + 1)).takeWhile M.alpha = a at hsplit
    have ha_all : ∀ x ∈ a, M.alpha x = true := by
      intro x hx
      rw [← hA] at hx
      exact takeWhile_all hx
    have hlsplit := congrArg List.length hsplit
    rw [List.length_drop, List.length_append, List.length_cons] at hlsplit
    have hall := congrArg List.length ha.all
    rw [List.length_append] at hall
    obtain ⟨s1, h1, r1, a1, z1, l1⟩ := wordRest_at (alpha := M.alpha) a (c.src.ring.size + c.src.rest.length + 1) c.src h _
      (c.surf ++ [t]) b rest ha hsplit ha_all hb (by have := ha.rep.near; omega)
    obtain ⟨s2, r2, a2, z2⟩ := moveBack_at a1 (k := 1) (by omega) (by omega) (by rw [z1, hm.size_eq, l1]; omega)
    obtain ⟨s3, r3, a3, z3⟩ := moveBack_at a2 (k := 0) (by omega) (by omega) (by rw [z2, z1, hm.size_eq, l1]; omega)
    simp only [if_true]
    rw [r1]
    dsimp only
    rw [r2]
    have hu : c.surf ++ [t] ++ a = (text.drop q).take n ++ ((text.drop q).drop n).takeWhile M.alpha := by
      rw [hm.surf, hdropn, List.takeWhile_cons, hat, hA, List.append_assoc]
      rfl
    have hulen : (c.surf ++ [t] ++ a).length = n + 1 + a.length := by
      rw [hm.surf, List.length_append, List.length_append, htakelen, List.length_singleton]
    obtain ⟨f, fs, hfs⟩ : ∃ f fs, c.surf ++ [t] ++ a = f :: fs := by
      cases e : c.surf ++ [t] ++ a with
      | nil => rw [e, List.length_nil] at hulen; omega
      | cons f fs => exact ⟨f, fs, rfl⟩
    have hfa : M.alpha f = true := by
      rcases Nat.eq_zero_or_pos n with e | e
      · subst e
        rw [hm.surf, List.take_zero, List.nil_append, List.singleton_append] at hfs
        cases hfs
        exact hat
      · refine hfirst f ?_ e
        have : (c.surf ++ [t] ++ a)[0]? = some f := by rw [hfs]; rfl
        rw [List.append_assoc, List.getElem?_append_left (by rw [hm.surf, htakelen]; exact e), hm.surf,
          List.getElem?_take_of_lt e] at this
        exact this
    rw [hfs]
    show ∃ c' u, (if M.alpha f = false then _ else _) = Outcome.ok c' ∧ _
    rw [if_neg (by rw [hfa]; simp), r3]
    refine ⟨_, c.surf ++ [t] ++ a, rfl, hu, ?_, by omega, ?_⟩
    · refine hcat _ (text.drop (q + n + 1 + a.length)) ?_
      conv_lhs => rw [← List.take_append_drop n (text.drop q), hdropn, hsplit]
      rw [← List.drop_drop, hsplit, List.drop_left, hm.surf]
      simp
    · rw [hulen, hfs]
      have : q + (n + 1 + a.length) = q + n + 1 + a.length + 1 - 1 - 0 := by omega
      rw [this]
      exact start_reset a3 (z3.trans (z2.trans (z1.trans hm.size_eq))) hm.out_eq
  | false =>
    have hpos : 0 < n := by
      rcases Nat.eq_zero_or_pos n with e | e
      · have := h0 e
        rw [hat] at this
        cases this
      · exact e
    simp only [Bool.false_eq_true, if_false]
    show ∃ c' u, (match c.surf with
      | [] => _
      | f :: fs => _) = Outcome.ok c' ∧ _
    have hulen : c.surf.length = n := by rw [hm.surf, htakelen]
    obtain ⟨f, fs, hfs⟩ : ∃ f fs, c.surf = f :: fs := by
      cases e : c.surf with
      | nil => rw [e, List.length_nil] at hulen; omega
      | cons f fs => exact ⟨f, fs, rfl⟩
    have hfa : M.alpha f = true := by
      refine hfirst f ?_ hpos
      have : c.surf[0]? = some f := by rw [hfs]; rfl
      rw [hm.surf, List.getElem?_take_of_lt hpos] at this
      exact this
    obtain ⟨s3, r3, a3, z3⟩ := moveBack_at ha (k := 1) (by omega) (by omega) (by rw [hm.size_eq]; omega)
    rw [hfs]
    dsimp only
    rw [if_neg (by rw [hfa]; simp), r3]
    have htw : ((text.drop q).drop n).takeWhile M.alpha = [] := by
      rw [hdropn, List.takeWhile_cons, hat]
      rfl
    refine ⟨_, c.surf, rfl, by rw [htw, List.append_nil]; exact hm.surf, ?_, by omega, ?_⟩
    · refine hcat _ ((text.drop q).drop n) ?_
      rw [hm.surf]
      exact (List.take_append_drop n _).symm
    · rw [hulen, ← hfs]
      have : q + n = q + n + 1 - 1 := by omega
      rw [this]
      exact start_reset a3 (z3.trans hm.size_eq) hm.out_eq

theorem longest_of_noted {w : List τ} {q n : Nat} {forms : List φ} {loc : Nat} (h : Noted M size w q (n + 1) forms loc) :
    (forms = [] ∧ ∀ k, ¬ Longest M w n k) ∨ ∃ k, Longest M w n k ∧ forms = M.forms (after M w k) (w.take k) ∧ loc = (q + k) % size := by
  rcases h with ⟨h1, h2⟩ | ⟨k, h1, h2, h3, h4, h5⟩
  · exact .inl ⟨h1, fun k hk => h2 k (by have := hk.1; omega) hk.2.1⟩
  · exact .inr ⟨k, ⟨by omega, h2, fun k' hk' he => h3 k' (by omega) he⟩, h4, h5⟩

theorem longest_unique {w : List τ} {n k k' : Nat} (h : Longest M w n k) (h' : Longest M w n k') : k = k' :=
  Nat.le_antisymm (h'.2.2 k h.1 h.2.1) (h.2.2 k' h'.1 h'.2.1)

/-- One piece of the text. -/
theorem piece (hf : Fits M size text) {q : Nat} {out : List (Event τ φ)} {c : Conf M} (hm : Start M size text q out c)
    (hq : q < text.length) : ∃ (r q' : Nat) (e : Event τ φ) (c' : Conf M), (∀ m, analyse (m + r) c = analyse m c') ∧ q < q' ∧
      q' ≤ text.length ∧ Start M size text q' (out ++ printed M.keep [e]) c' ∧
      ∀ es, Divides M (text.drop q') es → Divides M (text.drop q) (e :: es) := by
  obtain ⟨n, hn⟩ := follows_exists hf hq
  have hlen : (text.drop q).length = text.length - q := List.length_drop
  have hnl := hn.1
  have hns := hf.short q n hn
  have hs2 := hf.two
  obtain ⟨c1, r1, m1⟩ := active_steps hf hn n c hm.1 (Nat.le_refl _)
  obtain ⟨t, c2, ht, hg, hr, h2⟩ := read_step hf m1 hn (Nat.le_refl _)
  have hp := plain_at hf ht
  have hst : M.step c2.st t = after M (text.drop q) (n + 1) := by rw [after_succ _ _ ht, h2.st]
  have hact : M.active (M.step c2.st t) = false := by rw [hst]; exact hn.2.2
  -- it is enough to say what `ended` does
  suffices hsuff : ∃ (q' : Nat) (e : Event τ φ) (c' : Conf M), ended { c2 with st := M.step c2.st t } t = .ok c' ∧ q < q' ∧
      q' ≤ text.length ∧ Start M size text q' (out ++ printed M.keep [e]) c' ∧
      ∀ es, Divides M (text.drop q') es → Divides M (text.drop q) (e :: es) by
    obtain ⟨q', e, c', hend, h⟩ := hsuff
    refine ⟨n + 1, q', e, c', fun m => ?_, h⟩
    have : m + (n + 1) = (m + 1) + n := by omega
    rw [this, r1, analyse]
    have hround : round c1 = .ok (.inl c') := by
      unfold round
      rw [show c1.src.getToken = (some t, c1.src.getToken.2) from by rw [← hg]]
      dsimp only
      rw [hp, if_neg (by simp), hr]
      show (if M.active (M.step c2.st t) = true then _ else _) = _
      rw [hact, if_neg (by simp), hend]
      rfl
    rw [hround]
    rfl
  generalize hc3 : ({ c2 with st := M.step c2.st t } : Conf M) = c3
  have hsurf : c3.surf = (text.drop q).take n := by rw [← hc3]; exact h2.surf
  have hforms : c3.forms = c2.forms := by rw [← hc3]
  have hloc : c3.loc = c2.loc := by rw [← hc3]
  have hsrc : c3.src = c2.src := by rw [← hc3]
  have hout : c3.out = out := by rw [← hc3]; exact h2.out_eq
  obtain ⟨h, ha, f1, f2, f3⟩ := h2.at'
  rw [← hsrc] at ha
  have hz3 : c3.src.ring.size = size := by rw [hsrc]; exact h2.size_eq
  have htakelen : ((text.drop q).take n).length = n := by rw [List.length_take]; omega
  have hhead : (text.drop q).head? = (text.drop q)[0]? := List.head?_eq_getElem?
  unfold ended
  by_cases hblank : c3.surf = [] ∧ M.alpha t = false
  · rw [if_pos hblank]
    have hn0 : n = 0 := by
      have := hblank.1
      rw [hsurf] at this
      rw [this] at htakelen
      simpa using htakelen.symm
    subst hn0
    refine ⟨q + 1, .blank t, _, rfl, by omega, by omega, ?_, ?_⟩
    · have : printed M.keep [(.blank t : Event τ φ)] = blankOut M t := by
        unfold printed blankOut
        cases M.keep <;> rfl
      rw [this]
      exact start_reset ha hz3 hout
    · intro es hes
      have e1 : text.drop q = t :: text.drop (q + 1) := by
        rw [List.drop_eq_getElem_cons hq]
        congr 1
        rw [List.getElem?_drop, Nat.add_zero, List.getElem?_eq_getElem hq] at ht
        exact Option.some.inj ht
      rw [e1] at hn ⊢
      exact .blank hn hblank.2 hes
  · rw [if_neg hblank]
    have hunk : ∀ (hno : ∀ k, Longest M (text.drop q) n k → Unusable M (text.drop q) n k),
        ∃ (q' : Nat) (e : Event τ φ) (c' : Conf M), unknownWord c3 t = .ok c' ∧ q < q' ∧ q' ≤ text.length ∧
          Start M size text q' (out ++ printed M.keep [e]) c' ∧
          ∀ es, Divides M (text.drop q') es → Divides M (text.drop q) (e :: es) := by
      intro hno
      have h0 : n = 0 → M.alpha t = true := by
        intro e
        subst e
        by_contra hc
        exact hblank ⟨by rw [hsurf]; simp, by simpa using hc⟩
      have hc3' : unknownWord c3 t = unknownWord c2 t := by rw [← hc3]; rfl
      obtain ⟨c', u, eu, hu, hcat, hpos, hstart⟩ := unknown_step hf h2 hn ht h0
      rw [hc3']
      have hlu := congrArg List.length hcat
      rw [hlen, List.length_append, List.length_drop] at hlu
      refine ⟨q + u.length, .unknown u, c', eu, by omega, by omega, hstart, ?_⟩
      intro es hes
      refine .unknown hn (fun e => ?_) hno hcat hu hes
      subst e
      exact ⟨t, by rw [hhead]; exact ht, h0 rfl⟩
    rcases longest_of_noted h2.noted with ⟨hnil, hno⟩ | ⟨k, hk, hfk, hlk⟩
    · rw [hforms, if_pos hnil]
      exact hunk fun k hk => absurd hk (hno k)
    · by_cases hnil : c2.forms = []
      · rw [hforms, if_pos hnil]
        refine hunk fun k' hk' => ?_
        rw [← longest_unique hk hk']
        exact .inl (by rw [← hfk]; exact hnil)
      · rw [hforms, if_neg hnil]
        obtain ⟨i, a, b, hki, hwa, hwb, _⟩ := hk.2.1.2
        have hkn := hk.1
        have hlast : c3.surf.getLast? = (text.drop q)[n - 1]? := by
          rw [hsurf, List.getLast?_eq_getElem?, htakelen, List.getElem?_take_of_lt (by omega)]
        have hl : (text.drop q)[n - 1]? = some (text.drop q)[n - 1] := List.getElem?_eq_getElem (by omega)
        rw [hlast, hl]
        dsimp only
        have hbuf : c3.src.ring.buf c3.loc = b := by
          have hwb' : h[q + k]? = some b := by
            rw [List.getElem?_drop, ← ha.all, List.getElem?_append_left (by have := ha.rep.le; omega)] at hwb
            exact hwb
          rw [hloc, hlk, ← hz3]
          exact ha.rep.buf _ _ hwb' (by rw [hz3]; omega)
        rw [hbuf]
        by_cases hun : M.alpha b = true ∧ M.alpha (text.drop q)[n - 1] = true
        · rw [if_pos hun]
          refine hunk fun k' hk' => ?_
          rw [← longest_unique hk hk']
          exact .inr ⟨n - 1, b, _, by omega, hwb, hl, hun.1, hun.2⟩
        · rw [if_neg hun]
          unfold knownWord
          dsimp only
          have hne : h ≠ [] := by
            intro e
            have := ha.rep.le
            rw [e, List.length_nil] at this
            omega
          have hdiff : c3.src.ring.diffPrev (c3.loc + 1) = n - k := by
            have hd := diff_rep ha.rep (p0 := q + k + 1) hne (by omega) (by rw [hz3]; omega)
            rw [cur_succ, hz3] at hd
            rw [hloc, hlk, hd]
            omega
          rw [hdiff, hsurf, htakelen, if_neg (by omega)]
          obtain ⟨s3, r3, a3, z3⟩ := moveBack_at ha (k := n - k + 1) (by omega) (by omega) (by rw [hz3]; omega)
          rw [r3]
          have hq' : q + n + 1 - (n - k + 1) = q + k := by omega
          rw [hq'] at a3
          have htt : ((text.drop q).take n).take (n - (n - k)) = (text.drop q).take k := by
            rw [List.take_take]
            congr 1
            omega
          refine ⟨q + k, .word ((text.drop q).take k) c3.forms, _, rfl, by omega, by omega, ?_, ?_⟩
          · rw [htt]
            exact start_reset a3 (z3.trans hz3) hout
          · intro es hes
            rw [hforms, hfk]
            rw [← List.drop_drop] at hes
            refine .word hn hk ?_ hes
            rintro (hc | ⟨m, b', l', hm', hb', hl', hb1, hl1⟩)
            · exact hnil (hfk.trans hc)
            · have hmn : m = n - 1 := by omega
              subst hmn
              rw [hwb] at hb'
              rw [hl] at hl'
              cases hb'
              cases hl'
              exact hun ⟨hb1, hl1⟩

theorem printed_append (keep : Bool) (a b : List (Event τ φ)) : printed keep (a ++ b) = printed keep a ++ printed keep b :=
  List.filter_append ..

theorem divide (hf : Fits M size text) : ∀ (m : Nat) (q : Nat) (out : List (Event τ φ)) (c : Conf M), text.length - q ≤ m →
    q ≤ text.length → Start M size text q out c →
    ∃ (r : Nat) (es : List (Event τ φ)), analyse r c = .ok (some (out ++ printed M.keep es)) ∧ Divides M (text.drop q) es := by
  intro m
  induction m with
  | zero =>
    intro q out c hq hle hs
    have hqe : q = text.length := by omega
    refine ⟨1, [], ?_, ?_⟩
    · obtain ⟨h, ha, _⟩ := hs.1.at'
      have hg := (getToken_at ha).1
      rw [List.getElem?_eq_none (by omega)] at hg
      rw [analyse]
      have hround : round c = .ok (.inr out) := by
        unfold round
        rw [show c.src.getToken = (none, c.src.getToken.2) from by rw [← hg]]
        dsimp only
        rw [hs.2, if_neg (by simp), hs.1.out_eq]
      rw [hround]
      show Outcome.ok (some out) = _
      simp [printed]
    · rw [hqe, List.drop_length]
      exact .done
  | succ m ih =>
    intro q out c hq hle hs
    rcases Nat.lt_or_ge q text.length with hlt | hge
    · obtain ⟨r, q', e, c', hr, h1, h2, h3, h4⟩ := piece hf hs hlt
      obtain ⟨r2, es, e2, d2⟩ := ih q' _ c' (by omega) h2 h3
      refine ⟨r2 + r, e :: es, ?_, h4 es d2⟩
      rw [hr, e2, List.append_assoc, ← printed_append]
      rfl
    · exact ih q out c (by omega) hle hs

end

/-- C85: on a text that fits, the loop comes to an end, and what it prints is the text divided into longest words. -/
theorem C85_divides_partial {τ φ : Type} (M : Machine τ φ) (size : Nat) (d : τ) (text : List τ) (hf : Fits M size text) :
    ∃ (r : Nat) (es : List (Event τ φ)), analyse r (Conf.start M size d text) = .ok (some (printed M.keep es)) ∧
      Divides M text es := by
  have hs : Start M size text 0 [] (Conf.start M size d text) := by
    refine ⟨⟨⟨[], fresh_at (by have := hf.two; omega) d text, ?_⟩, rfl, (after_zero _).symm, ?_, .inl ⟨rfl, fun k hk => by omega⟩, rfl⟩, rfl⟩
    · have := hf.two
      rw [List.length_nil]
      omega
    · simp [Conf.start]
  obtain ⟨r, es, e1, e2⟩ := divide hf text.length 0 [] _ (by omega) (by omega) hs
  exact ⟨r, es, e1, e2⟩

/-- C85: in a text so divided, the tokens of the pieces are the tokens of the text, in the same order: no token is lost, repeated or
moved. -/
theorem C85_nothing_lost {τ φ : Type} {M : Machine τ φ} {text : List τ} {es : List (Event τ φ)} (h : Divides M text es) :
    es.flatMap Event.tokens = text := by
  induction h with
  | done => rfl
  | blank _ _ _ ih => rw [List.flatMap_cons, ih]; rfl
  | word _ _ _ _ ih =>
    rw [List.flatMap_cons, ih]
    exact List.take_append_drop ..
  | unknown _ _ _ he _ _ ih =>
    rw [List.flatMap_cons, ih]
    exact he.symm

theorem follows_unique {τ φ : Type} {M : Machine τ φ} {w : List τ} {n n' : Nat} (h : Follows M w n) (h' : Follows M w n') :
    n = n' := by
  rcases Nat.lt_trichotomy n n' with c | c | c
  · have := h'.2.1 (n + 1) (by omega) (by omega)
    rw [h.2.2] at this
    cases this
  · exact c
  · have := h.2.1 (n' + 1) (by omega) (by omega)
    rw [h'.2.2] at this
    cases this

/-- C85: a text has at most one division, so it is determined what is printed. -/
theorem C85_one_division {τ φ : Type} {M : Machine τ φ} {text : List τ} {es es' : List (Event τ φ)} (h : Divides M text es)
    (h' : Divides M text es') : es = es' := by
  induction h generalizing es' with
  | done =>
    generalize hw : ([] : List τ) = w at h'
    cases h' with
    | done => rfl
    | blank => cases hw
    | word hf =>
      subst hw
      exact absurd hf.1 (by simp)
    | unknown hf =>
      subst hw
      exact absurd hf.1 (by simp)
  | @blank t w es hf ha _ ih =>
    generalize hw : t :: w = v at h'
    cases h' with
    | done => cases hw
    | blank _ _ hd =>
      cases hw
      rw [ih hd]
    | word hf' hl =>
      subst hw
      have := follows_unique hf hf'
      subst this
      obtain ⟨_, j, _, _, hk, _⟩ := hl.2.1
      have := hl.1
      omega
    | unknown hf' h0 =>
      subst hw
      obtain ⟨t', e, ht'⟩ := h0 (follows_unique hf' hf)
      cases e
      rw [ha] at ht'
      cases ht'
  | @word w n k es hf hl hu _ ih =>
    cases h' with
    | done => exact absurd hf.1 (by simp)
    | blank hf' =>
      have := follows_unique hf hf'
      subst this
      obtain ⟨_, j, _, _, hk, _⟩ := hl.2.1
      have := hl.1
      omega
    | word hf' hl' _ hd =>
      have := follows_unique hf hf'
      subst this
      have := longest_unique hl hl'
      subst this
      rw [ih hd]
    | unknown hf' _ hno =>
      have := follows_unique hf hf'
      subst this
      exact absurd (hno _ hl) hu
  | @unknown w n es u v hf h0 hno he hu _ ih =>
    generalize hw : w = w' at h'
    cases h' with
    | done =>
      subst hw
      exact absurd hf.1 (by simp)
    | blank hf' ha =>
      subst hw
      obtain ⟨t', e, ht'⟩ := h0 (follows_unique hf hf')
      cases e
      rw [ha] at ht'
      cases ht'
    | word hf' hl hu' =>
      subst hw
      have := follows_unique hf hf'
      subst this
      exact absurd (hno _ hl) hu'
    | unknown hf' _ _ he' hu2 hd =>
      subst hw
      have := follows_unique hf hf'
      subst this
      have huu := hu.trans hu2.symm
      subst huu
      have := List.append_cancel_left (he.symm.trans he')
      subst this
      rw [ih hd]

/-- C85: a text no longer than the buffer asks less of the transducer. -/
theorem C85_short_partial {τ φ : Type} (M : Machine τ φ) (size : Nat) (d : τ) (text : List τ) (hs : 2 ≤ size)
    (hlen : text.length ≤ size) (hp : ∀ t ∈ text, M.reserved t = false)
    (hb : ∀ t ∈ text, M.alpha t = false → M.active (M.step M.init t) = false)
    (he : ∃ body z, text = body ++ [z] ∧ M.alpha z = false ∧ ∀ s, M.active (M.step s z) = false) :
    ∃ (r : Nat) (es : List (Event τ φ)), analyse r (Conf.start M size d text) = .ok (some (printed M.keep es)) ∧
      Divides M text es ∧ es.flatMap Event.tokens = text := by
  have hf : Fits M size text := by
    refine ⟨hs, hp, hb, he, fun q n hn => ?_, fun q n k hn h1 h2 _ => ?_⟩
    · have := hn.1
      rw [List.length_drop] at this
      omega
    · have := hn.1
      rw [List.length_drop] at this
      rw [Nat.mod_eq_of_lt (by omega)]
      omega
  obtain ⟨r, es, e1, e2⟩ := C85_divides_partial M size d text hf
  exact ⟨r, es, e1, e2, C85_nothing_lost e2⟩

/-- An example: a transducer given by a list of words with their analyses. -/
def lexMachine (lex : List (List Char × List String)) : Machine Char String where
  σ := Option (List Char)
  init := some []
  step s t := s.bind fun u => if lex.any fun e => (u ++ [t]).isPrefixOf e.1 then some (u ++ [t]) else none
  active s := s.isSome
  final s := match s with
    | none => false
    | some u => lex.any fun e => e.1 == u
  forms s _ := match s with
    | none => []
    | some u => (lex.filter fun e => e.1 == u).flatMap fun e => e.2
  alpha t := t.isAlpha
  reserved t := t == '^'
  keep := true

theorem lexMachine_ends {lex : List (List Char × List String)} {z : Char} (hz : ∀ e ∈ lex, z ∉ e.1) (s : (lexMachine lex).σ) :
    (lexMachine lex).active ((lexMachine lex).step s z) = false := by
  match s with
  | none => rfl
  | some u =>
    show (if (lex.any fun e => (u ++ [z]).isPrefixOf e.1) = true then some (u ++ [z]) else none).isSome = false
    rw [if_neg ?_]
    · rfl
    · intro h
      obtain ⟨e, he, hp⟩ := List.any_eq_true.mp h
      refine hz e he ?_
      exact (List.isPrefixOf_iff_prefix.mp hp).subset (by simp)

/-- The lexicon of the examples. -/
def exampleLex : List (List Char × List String) :=
  [("ab".toList, ["ab<n>"]), ("ab ab".toList, ["abab<n>", "abab<v>"]), ("ab abc".toList, ["abc<n>"])]

example : analyse 30 (Conf.start (lexMachine exampleLex) bufferSize ' ' "ab ab, ab abx\n".toList) =
    .ok (some [.word "ab ab".toList ["abab<n>", "abab<v>"], .blank ',', .blank ' ', .word "ab".toList ["ab<n>"], .blank ' ',
      .unknown "abx".toList, .blank '\n']) := by decide +kernel

example : ∃ (r : Nat) (es : List (Event Char String)),
    analyse r (Conf.start (lexMachine exampleLex) bufferSize ' ' "ab ab, ab abx\n".toList) =
      .ok (some (printed (lexMachine exampleLex).keep es)) ∧
    Divides (lexMachine exampleLex) "ab ab, ab abx\n".toList es ∧ es.flatMap Event.tokens = "ab ab, ab abx\n".toList :=
  C85_short_partial _ bufferSize ' ' _ (by decide) (by decide) (by decide) (by decide)
    ⟨"ab ab, ab abx".toList, '\n', by decide, by decide, lexMachine_ends (by decide)⟩

/-- C85, where it goes wrong: if a word of the transducer starts with a token that is not alphabetic, text can be lost.  Here the
second hyphen is not printed. -/
theorem C85_lost_violated :
    analyse 10 (Conf.start (lexMachine [("-a".toList, ["-a<n>"])]) bufferSize ' ' "--\n".toList) =
      .ok (some [.blank '-', .blank '\n']) := by decide +kernel

/-- C85, where it goes wrong: if the text ends with an unknown word, the loop never ends; it prints that word again and again. -/
theorem C85_forever_violated (n : Nat) :
    analyse n (Conf.start (lexMachine []) bufferSize ' ' "x".toList) = .ok none := by
  let ring : Ring Char := ⟨1024, fun i => if i = 0 then 'x' else ' ', 1024, 1⟩
  let again : List (Event Char String) → Conf (lexMachine []) := fun out => ⟨⟨ring, []⟩, some [], [], [], 0, out⟩
  have hloop : ∀ out, round (again out) = .ok (.inl (again (out ++ [.unknown ['x']]))) := fun out => rfl
  have hall : ∀ (n : Nat) (out : List (Event Char String)), analyse n (again out) = .ok none := by
    intro n
    induction n with
    | zero => intro out; rfl
    | succ n ih =>
      intro out
      rw [analyse, hloop]
      exact ih _
  cases n with
  | zero => rfl
  | succ n =>
    have hfirst : round (Conf.start (lexMachine []) bufferSize ' ' "x".toList) = .ok (.inl (again [.unknown ['x']])) := rfl
    rw [analyse, hfirst]
    exact hall n _

/-- C85, where it goes wrong: if the text ends with a word of the transducer, that word is not printed at all. -/
theorem C85_end_violated :
    analyse 10 (Conf.start (lexMachine exampleLex) bufferSize ' ' "ab".toList) = .ok (some []) := by decide +kernel

/-- C85, where it goes wrong: if the text ends in the middle of a longer word, the rest is printed as part of the shorter word. -/
theorem C85_cut_violated :
    analyse 10 (Conf.start (lexMachine exampleLex) bufferSize ' ' "ab a".toList) =
      .ok (some [.word "ab a".toList ["ab<n>"]]) := by decide +kernel

/-- An example: every lookup is followed to the end of the line, and only the first token is a word. -/
def lineMachine : Machine Char String where
  σ := Option Nat
  init := some 0
  step s t := s.bind fun n => if t = '\n' ∨ (n = 0 ∧ t ≠ 'a') then none else some (n + 1)
  active s := s.isSome
  final s := decide (s = some 1)
  forms _ _ := ["a<n>"]
  alpha t := t.isAlpha
  reserved _ := false
  keep := true

example : analyse 20 (Conf.start lineMachine bufferSize ' ' "a   \n".toList) =
    .ok (some [.word ['a'] ["a<n>"], .blank ' ', .blank ' ', .blank ' ', .blank '\n']) := by decide +kernel

set_option maxRecDepth 100000 in
/-- C85, where it goes wrong: if the lookup follows 1025 tokens, the buffer has gone round once, and all the tokens are printed as the
surface form of the analysis of the first one. -/
theorem C85_long_violated :
    analyse 1028 (Conf.start lineMachine bufferSize ' ' ('a' :: (List.replicate 1024 ' ' ++ ['\n']))) =
      .ok (some [.word ('a' :: List.replicate 1024 ' ') ["a<n>"], .blank '\n']) := by decide +kernel

set_option maxRecDepth 100000 in
/-- C85, where it goes wrong: if a word ends where the buffer goes round, the token before that place is looked for before the start
of the array. -/
theorem C85_round_violated :
    analyse 1026 (Conf.start lineMachine bufferSize ' ' (List.replicate 1023 ' ' ++ "a \n".toList)) = .undefined := by
  decide +kernel

end Hfst.Proc
