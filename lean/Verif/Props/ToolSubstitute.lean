import Verif.Spec.ToolSubstitute
import Verif.Lemmas.Graph
import Mathlib.Tactic.ByContra

/-!
# C98: hfst-substitute reads labels and files of labels as documented
-/
namespace Hfst.Subst
open Hfst.StdString Hfst.Basic

/-! ## Labels -/

theorem divides_step (before : Str) (c : Char) (cs : Str) (hno : ∀ a b, Divides (before.reverse ++ c :: cs) a b → before.length ≤ a.length)
    (hc : c = ':' → ¬ Divides (before.reverse ++ c :: cs) before.reverse cs) :
    ∀ a b, Divides (before.reverse ++ c :: cs) a b → (c :: before).length ≤ a.length := by
  intro a b h
  rcases Nat.lt_or_ge before.length a.length with h1 | h1
  · exact h1
  · exfalso
    have h2 : before.reverse.length = a.length := by rw [List.length_reverse]; exact Nat.le_antisymm (hno a b h) h1
    have h3 := List.append_inj h.1 h2
    obtain ⟨e1, e2⟩ := h3
    rw [List.cons.injEq] at e2
    obtain ⟨e2, e3⟩ := e2
    exact hc e2 (by have h' := h; rw [← e1, ← e3] at h'; exact h')

theorem reverse_cons_append (c : Char) (before cs : Str) : (c :: before).reverse ++ cs = before.reverse ++ c :: cs := by
  rw [List.reverse_cons, List.append_assoc]; rfl

theorem escaped_single : Escaped ['\\'] := ⟨[], rfl, by rintro ⟨q, h⟩; cases q <;> cases h⟩

theorem escaped_cons (d : Char) (before : Str) :
    Escaped (d :: before).reverse ↔ d = '\\' ∧ ¬ ∃ r, before = '\\' :: r := by
  constructor
  · rintro ⟨p, h1, h2⟩
    rw [List.reverse_cons] at h1
    obtain ⟨e1, e2⟩ := List.append_inj' h1 rfl
    rw [List.cons.injEq] at e2
    refine ⟨e2.1, ?_⟩
    rintro ⟨r, rfl⟩
    exact h2 ⟨r.reverse, by rw [← e1, List.reverse_cons]⟩
  · rintro ⟨rfl, h⟩
    refine ⟨before.reverse, List.reverse_cons, ?_⟩
    rintro ⟨q, hq⟩
    have := congrArg List.reverse hq
    rw [List.reverse_reverse, List.reverse_append] at this
    exact h ⟨q.reverse, this⟩

theorem scan_spec (before rest : Str) (hno : ∀ a b, Divides (before.reverse ++ rest) a b → before.length ≤ a.length) :
    match scan before rest with
    | .never => Hangs (before.reverse ++ rest)
    | .single => ∀ a b, ¬ Divides (before.reverse ++ rest) a b
    | .pair a b => DividesFirst (before.reverse ++ rest) a b := by
  induction rest generalizing before with
  | nil =>
    unfold scan
    intro a b h
    have h1 := hno a b h
    have h2 := congrArg List.length h.1
    simp only [List.append_nil, List.length_reverse, List.length_append, List.length_cons] at h2
    omega
  | cons c cs ih =>
    have step : ∀ (hc : c = ':' → ¬ Divides (before.reverse ++ c :: cs) before.reverse cs),
        match scan (c :: before) cs with
        | .never => Hangs (before.reverse ++ c :: cs)
        | .single => ∀ a b, ¬ Divides (before.reverse ++ c :: cs) a b
        | .pair a b => DividesFirst (before.reverse ++ c :: cs) a b := by
      intro hc
      have := ih (c :: before) (by rw [reverse_cons_append]; exact divides_step before c cs hno hc)
      rw [reverse_cons_append] at this
      exact this
    unfold scan
    by_cases hc : c ≠ ':'
    · rw [if_pos hc]
      exact step fun h => absurd h hc
    · rw [if_neg hc]
      have hc : c = ':' := by by_contra h; exact hc h
      cases before with
      | nil => exact step fun _ h => h.2.1 rfl
      | cons d before' =>
        simp only
        have here : cs ≠ [] → ¬ Escaped (d :: before').reverse → DividesFirst ((d :: before').reverse ++ c :: cs) (d :: before').reverse cs := by
          intro h1 h2
          refine ⟨⟨by rw [hc], by simp, h1, h2⟩, fun a' b' h => ?_⟩
          rw [List.length_reverse]
          exact hno a' b' h
        by_cases hcs : cs = []
        · rw [if_pos hcs]
          intro a b h
          have := divides_step (d :: before') c cs hno (fun _ h => h.2.2.1 hcs) a b h
          have h2 := congrArg List.length h.1
          subst hcs
          simp only [List.length_append, List.length_reverse, List.length_cons, List.length_nil] at h2 this
          omega
        · rw [if_neg hcs]
          by_cases hd : d = '\\'
          · rw [if_pos hd]
            cases before' with
            | nil =>
              obtain ⟨e, es, rfl⟩ : ∃ e es, cs = e :: es := by
                cases cs with
                | nil => exact absurd rfl hcs
                | cons e es => exact ⟨e, es, rfl⟩
              exact ⟨e, es, by rw [hc, hd]; rfl⟩
            | cons e before'' =>
              simp only
              by_cases he : e = '\\'
              · rw [if_pos he]
                exact here hcs fun h => ((escaped_cons _ _).1 h).2 ⟨before'', by rw [he]⟩
              · rw [if_neg he]
                exact step fun _ h => h.2.2.2 ((escaped_cons _ _).2 ⟨hd, by rintro ⟨r, hr⟩; rw [List.cons.injEq] at hr; exact he hr.1⟩)
          · rw [if_neg hd]
            exact here hcs fun h => hd ((escaped_cons _ _).1 h).1

theorem dividesFirst_unique {label a b a' b' : Str} (h : DividesFirst label a b) (h' : DividesFirst label a' b') : a = a' ∧ b = b' := by
  have hl : a.length = a'.length := Nat.le_antisymm (h.2 _ _ h'.1) (h'.2 _ _ h.1)
  obtain ⟨e1, e2⟩ := List.append_inj (h.1.1.symm.trans h'.1.1) hl
  rw [List.cons.injEq] at e2
  exact ⟨e1, e2.2⟩

theorem hangs_never (label : Str) (h : Hangs label) : labelPair label = .never := by
  obtain ⟨c, rest, rfl⟩ := h
  rfl

theorem isPair_unique {label : Str} {p q : Sym × Sym} (h : IsPair label p) (h' : IsPair label q) : p = q := by
  obtain ⟨a, b, h1, h2, h3⟩ := h
  obtain ⟨a', b', h1', h2', h3'⟩ := h'
  obtain ⟨rfl, rfl⟩ := dividesFirst_unique h1 h1'
  exact Prod.ext (h2.trans h2'.symm) (h3.trans h3'.symm)

/-- **C98, labels**: a label that does not start with a backslash and a colon is read as a pair exactly if there is a colon in it that is
neither first nor last nor escaped; the first such colon divides it, and "@0@" is epsilon on both sides. -/
theorem C98_label (label : Str) (hh : ¬ Hangs label) :
    (∀ a b, labelPair label = .pair a b ↔ IsPair label (a, b)) ∧ (labelPair label = .single ↔ ¬ ∃ p, IsPair label p) := by
  have key := scan_spec [] label (fun _ _ _ => Nat.zero_le _)
  simp only [List.reverse_nil, List.nil_append] at key
  unfold labelPair
  cases hs : scan [] label with
  | never => rw [hs] at key; exact absurd key hh
  | single =>
    rw [hs] at key
    have no : ∀ p, ¬ IsPair label p := fun p ⟨a, b, h, _⟩ => key a b h.1
    exact ⟨fun a b => ⟨fun h => (by cases h), fun h => absurd h (no _)⟩, ⟨fun _ ⟨p, h⟩ => no p h, fun _ => rfl⟩⟩
  | pair a b =>
    rw [hs] at key
    have yes : IsPair label (zero a, zero b) := ⟨a, b, key, rfl, rfl⟩
    refine ⟨fun a' b' => ⟨fun h => ?_, fun h => ?_⟩, ⟨fun h => (by cases h), fun h => absurd ⟨_, yes⟩ h⟩⟩
    · cases h; exact yes
    · have := isPair_unique yes h
      rw [Prod.mk.injEq] at this
      simp only [this.1, this.2]

theorem labelPair_cases (label : Str) (hh : ¬ Hangs label) :
    (labelPair label = .single ∧ ¬ ∃ p, IsPair label p) ∨ ∃ a b, labelPair label = .pair a b ∧ IsPair label (a, b) := by
  obtain ⟨h1, h2⟩ := C98_label label hh
  cases h : labelPair label with
  | never =>
    have key := scan_spec [] label (fun _ _ _ => Nat.zero_le _)
    simp only [List.reverse_nil, List.nil_append] at key
    unfold labelPair at h
    cases hs : scan [] label with
    | never => rw [hs] at key; exact absurd key hh
    | single => rw [hs] at h; cases h
    | pair a b => rw [hs] at h; cases h
  | single => exact Or.inl ⟨rfl, h2.1 h⟩
  | pair a b => exact Or.inr ⟨a, b, rfl, (h1 a b).1 h⟩

/-! ## -f and -t -/

section Tool
variable {T : Type}

/-- **C98, -f and -t**: if both labels are pairs, each transducer of the archive is written with the one pair replaced by the other;
otherwise with the symbol of the one name replaced by the symbol of the other name.  "@0@" is epsilon in all of them. -/
theorem C98_options (L : Library T) (x y : Str) (hx : x ≠ []) (hy : y ≠ []) (hhx : ¬ Hangs x) (hhy : ¬ Hangs y) (gs : List T) :
    (∀ p q, IsPair x p → IsPair y q → substituteOption L x y gs = ⟨gs.map (L.pair p q), .success⟩) ∧
    (¬ ((∃ p, IsPair x p) ∧ ∃ q, IsPair y q) →
      substituteOption L x y gs = ⟨gs.map (L.label (if x = "@0@".toList then epsilon else x) (if y = "@0@".toList then epsilon else y)),
        .success⟩) := by
  have eps : ∀ z : Str, labelPair (zero z) = labelPair z := by
    intro z
    unfold zero
    split
    · rename_i h; subst h; decide +kernel
    · rfl
  rcases labelPair_cases x hhx with ⟨h1, h1'⟩ | ⟨a, b, h1, h1'⟩ <;> rcases labelPair_cases y hhy with ⟨h2, h2'⟩ | ⟨c, d, h2, h2'⟩
  all_goals
    simp only [substituteOption, eps, h1, h2, if_neg hx, if_neg hy]
    refine ⟨fun p q hp hq => ?_, fun h => ?_⟩
  · exact absurd ⟨p, hp⟩ h1'
  · rfl
  · exact absurd ⟨p, hp⟩ h1'
  · rfl
  · exact absurd ⟨q, hq⟩ h2'
  · rfl
  · rw [isPair_unique hp h1', isPair_unique hq h2']
  · exact absurd ⟨⟨_, h1'⟩, _, h2'⟩ h

/-- **C98, an empty option**: an empty argument of -f or -t makes the tool fail before anything is written. -/
theorem C98_empty_option (L : Library T) (x y : Str) (hx : ¬ Hangs x) (hy : ¬ Hangs y) (h : x = [] ∨ y = []) (gs : List T) :
    substituteOption L x y gs = ⟨[], .failure⟩ := by
  have eps : ∀ z : Str, labelPair (zero z) = labelPair z := by
    intro z
    unfold zero
    split
    · rename_i h; subst h; decide +kernel
    · rfl
  by_cases h0 : x = []
  · subst h0; rfl
  · have h1 := h.resolve_left h0
    rcases labelPair_cases x hx with ⟨e1, e1'⟩ | ⟨a, b, e1, e1'⟩ <;> rcases labelPair_cases y hy with ⟨e2, e2'⟩ | ⟨c, d, e2, e2'⟩
    all_goals simp only [substituteOption, eps, e1, e2, if_neg h0, if_pos h1]

/-- **C98, a pair for a symbol (violated)**: if only the first label is a pair, the tool reports success and asks the library to replace a
symbol whose name has a colon in it, and not the arc that the pair defines. -/
theorem C98_mixed_violated (L : Library T) (x y : Str) (p : Sym × Sym) (hp : IsPair x p) (hx : ¬ Hangs x) (hy : y ≠ []) (hhy : ¬ Hangs y)
    (hs : ¬ ∃ q, IsPair y q) (hz : y ≠ "@0@".toList) (gs : List T) :
    ':' ∈ x ∧ substituteOption L x y gs = ⟨gs.map (L.label x y), .success⟩ := by
  obtain ⟨a, b, h, _⟩ := hp
  have hm : ':' ∈ x := by rw [h.1.1]; simp
  have hx0 : x ≠ [] := by rintro rfl; cases hm
  have hxz : x ≠ "@0@".toList := by rintro rfl; revert hm; decide
  refine ⟨hm, ?_⟩
  have := (C98_options L x y hx0 hy hx hhy gs).2 fun h => hs h.2
  rw [if_neg hxz, if_neg hz] at this
  exact this

/-- **C98, an escaped colon (violated)**: the tool never ends if the argument of -f starts with a backslash and a colon and goes on after
them. -/
theorem C98_never_violated (L : Library T) (c : Char) (rest y : Str) (gs : List T) (inOrder : Bool) (lines : List Str) (g : T) :
    substituteOption L ('\\' :: ':' :: c :: rest) y gs = ⟨[], .never⟩ ∧
    ('\t' ∉ c :: rest → substituteFile L inOrder (('\\' :: ':' :: c :: rest ++ '\t' :: y) :: lines) (g :: gs) = ⟨[], .never⟩) := by
  constructor
  · have hz : zero ('\\' :: ':' :: c :: rest) = '\\' :: ':' :: c :: rest := if_neg (by simp)
    unfold substituteOption
    rw [hz]
    rfl
  · intro ht
    have cut : ∀ s : Str, '\t' ∉ s → cutLine (s ++ '\t' :: y) = some (s, y) := by
      intro s hs
      induction s with
      | nil => rfl
      | cons e s ih =>
        have he : e ≠ '\t' := fun h => hs (h ▸ List.mem_cons_self)
        rw [List.cons_append]
        unfold cutLine
        rw [if_neg he, ih fun h => hs (List.mem_cons_of_mem _ h)]
        rfl
    have hl : readLine ('\\' :: ':' :: c :: rest ++ '\t' :: y) = .never := by
      unfold readLine
      rw [if_neg (by simp), cut _ (by
        intro h
        rcases List.mem_cons.1 h with h | h
        · exact absurd h (by decide)
        · rcases List.mem_cons.1 h with h | h
          · exact absurd h (by decide)
          · exact ht h)]
      rfl
    simp only [substituteFile, fileLoop, readLines, hl]

/-! ## -F -/

theorem cutLine_columns (x rest : Str) (h : '\t' ∉ x) : cutLine (x ++ '\t' :: rest) = some (x, rest) := by
  induction x with
  | nil => rfl
  | cons e s ih =>
    have he : e ≠ '\t' := fun h' => h (h' ▸ List.mem_cons_self)
    rw [List.cons_append]
    unfold cutLine
    rw [if_neg he, ih fun h' => h (List.mem_cons_of_mem _ h')]
    rfl

theorem cutLine_none (s : Str) (h : '\t' ∉ s) : cutLine s = none := by
  induction s with
  | nil => rfl
  | cons e s ih =>
    have he : e ≠ '\t' := fun h' => h (h' ▸ List.mem_cons_self)
    unfold cutLine
    rw [if_neg he, ih fun h' => h (List.mem_cons_of_mem _ h')]
    rfl

theorem takeWhile_line (y : Str) (h : '\n' ∉ y) (nl : Str) (hn : nl = [] ∨ nl = ['\n']) : (y ++ nl).takeWhile (· ≠ '\n') = y := by
  induction y with
  | nil => rcases hn with rfl | rfl <;> rfl
  | cons c cs ih =>
    have hc : c ≠ '\n' := fun e => h (e ▸ List.mem_cons_self)
    rw [List.cons_append, List.takeWhile_cons, if_pos (by simpa using hc), ih fun hm => h (List.mem_cons_of_mem _ hm)]

theorem readLine_columns {l x y : Str} (h : Columns l x y) : readLine l =
    (match labelPair x with
      | .never => .never
      | px =>
        match labelPair y with
        | .never => .never
        | py =>
          if x = [] ∨ y = [] then .error
          else
            match px, py with
            | .pair a b, .pair c d => .ask (.pair (a, b) (c, d))
            | _, _ => .ask (.label x y)) := by
  obtain ⟨h1, h2, h3, h4⟩ := h
  obtain ⟨nl, hn, hl⟩ : ∃ nl : Str, (nl = [] ∨ nl = ['\n']) ∧ l = x ++ '\t' :: (y ++ nl) := by
    rcases h4 with rfl | rfl
    · exact ⟨[], Or.inl rfl, by simp⟩
    · exact ⟨['\n'], Or.inr rfl, by simp⟩
  have hh : l.head? ≠ some '\n' := by
    rw [hl]
    cases x with
    | nil => simp
    | cons c cs =>
      intro h
      simp only [List.cons_append, List.head?_cons, Option.some.injEq] at h
      exact h2 (h ▸ List.mem_cons_self)
  unfold readLine
  rw [if_neg hh, hl, cutLine_columns _ _ h1]
  simp only [takeWhile_line y h3 nl hn]
  cases labelPair x <;> cases labelPair y <;> rfl

theorem readLine_ignored {l : Str} (h : Ignored l) : readLine l = .skip := by
  rcases h with rfl | ⟨rest, h, rfl⟩
  · rfl
  · unfold readLine
    rw [if_neg (by simp), cutLine_none _ (by
      intro hm
      rcases List.mem_cons.1 hm with e | e
      · exact absurd e (by decide)
      · exact h e)]
    rfl

theorem isPair_ne {x : Str} {p : Sym × Sym} (h : IsPair x p) : x ≠ [] := by
  obtain ⟨a, b, h, _⟩ := h
  rw [h.1.1]
  simp

theorem readLine_asks {l : Str} {r : Request} (h : Asks l r) : readLine l = .ask r := by
  cases r with
  | label x y =>
    obtain ⟨h1, h2, h3, h4, h5, h6⟩ := h
    rw [readLine_columns h1]
    have hxy : ¬ (x = [] ∨ y = []) := by simp [h2, h3]
    rcases labelPair_cases x h4 with ⟨e1, e1'⟩ | ⟨a, b, e1, e1'⟩ <;> rcases labelPair_cases y h5 with ⟨e2, e2'⟩ | ⟨c, d, e2, e2'⟩
    all_goals simp only [e1, e2, if_neg hxy]
    exact absurd ⟨⟨_, e1'⟩, _, e2'⟩ h6
  | pair p q =>
    obtain ⟨x, y, h1, h2, h3, h4, h5⟩ := h
    rw [readLine_columns h1]
    have hxy : ¬ (x = [] ∨ y = []) := by simp [isPair_ne h4, isPair_ne h5]
    rw [((C98_label x h2).1 p.1 p.2).2 h4, ((C98_label y h3).1 q.1 q.2).2 h5]
    simp only [if_neg hxy]

theorem readLines_requests {lines : List Str} {rs : List Request} (h : Requests lines rs) : readLines lines = .inl rs := by
  induction h with
  | nil => rfl
  | ignored h _ ih => unfold readLines; rw [readLine_ignored h]; exact ih
  | asks h _ ih => unfold readLines; rw [readLine_asks h]; simp only [ih]

theorem readLines_error {before : List Str} {rs : List Request} (h : Requests before rs) (l : Str) (after : List Str)
    (hl : readLine l = .error) : readLines (before ++ l :: after) = .inr .failure := by
  induction h with
  | nil => simp only [List.nil_append, readLines, hl]
  | ignored h _ ih => rw [List.cons_append]; unfold readLines; rw [readLine_ignored h]; exact ih
  | asks h _ ih => rw [List.cons_append]; unfold readLines; rw [readLine_asks h]; simp only [ih]

/-- One line is added to the map of symbols (tools/src/hfst-substitute.cc:732-735). -/
def putLabel (m : List (Sym × Sym)) (r : Request) : List (Sym × Sym) :=
  match r with
  | .label x y => mapPut m x y
  | .pair _ _ => m

/-- One line is added to the map of pairs (tools/src/hfst-substitute.cc:719-721). -/
def putPair (m : List ((Sym × Sym) × (Sym × Sym))) (r : Request) : List ((Sym × Sym) × (Sym × Sym)) :=
  match r with
  | .label _ _ => m
  | .pair p q => mapPut m p q

theorem lastLabel_cons (r : Request) (rs : List Request) (x y : Sym) :
    LastLabel (r :: rs) x y ↔ LastLabel rs x y ∨ (r = .label x y ∧ ∀ y', .label x y' ∉ rs) := by
  constructor
  · rintro ⟨before, after, h1, h2⟩
    cases before with
    | nil => rw [List.nil_append, List.cons.injEq] at h1; exact Or.inr ⟨h1.1, h1.2 ▸ h2⟩
    | cons b bs => rw [List.cons_append, List.cons.injEq] at h1; exact Or.inl ⟨bs, after, h1.2, h2⟩
  · rintro (⟨before, after, h1, h2⟩ | ⟨h1, h2⟩)
    · exact ⟨r :: before, after, by rw [h1]; rfl, h2⟩
    · exact ⟨[], rs, by rw [h1]; rfl, h2⟩

theorem lastPair_cons (r : Request) (rs : List Request) (p q : Sym × Sym) :
    LastPair (r :: rs) p q ↔ LastPair rs p q ∨ (r = .pair p q ∧ ∀ q', .pair p q' ∉ rs) := by
  constructor
  · rintro ⟨before, after, h1, h2⟩
    cases before with
    | nil => rw [List.nil_append, List.cons.injEq] at h1; exact Or.inr ⟨h1.1, h1.2 ▸ h2⟩
    | cons b bs => rw [List.cons_append, List.cons.injEq] at h1; exact Or.inl ⟨bs, after, h1.2, h2⟩
  · rintro (⟨before, after, h1, h2⟩ | ⟨h1, h2⟩)
    · exact ⟨r :: before, after, by rw [h1]; rfl, h2⟩
    · exact ⟨[], rs, by rw [h1]; rfl, h2⟩

theorem putLabel_get (rs : List Request) (m : List (Sym × Sym)) (x y : Sym) :
    mapGet (rs.foldl putLabel m) x = some y ↔ LastLabel rs x y ∨ (mapGet m x = some y ∧ ∀ y', .label x y' ∉ rs) := by
  induction rs generalizing m with
  | nil =>
    refine ⟨fun h => Or.inr ⟨h, by simp⟩, ?_⟩
    rintro (⟨before, after, h, _⟩ | h)
    · cases before <;> cases h
    · exact h.1
  | cons r rs ih =>
    rw [List.foldl_cons, ih, lastLabel_cons]
    cases r with
    | pair p q => simp [putLabel]
    | label a b =>
      simp only [putLabel, mapGet_put]
      by_cases ha : x = a
      · subst ha
        simp
        intro _ h
        exact absurd rfl (h b).1
      · have ha' : a ≠ x := fun h => ha h.symm
        simp [ha, ha']

theorem putPair_get (rs : List Request) (m : List ((Sym × Sym) × (Sym × Sym))) (p q : Sym × Sym) :
    mapGet (rs.foldl putPair m) p = some q ↔ LastPair rs p q ∨ (mapGet m p = some q ∧ ∀ q', .pair p q' ∉ rs) := by
  induction rs generalizing m with
  | nil =>
    refine ⟨fun h => Or.inr ⟨h, by simp⟩, ?_⟩
    rintro (⟨before, after, h, _⟩ | h)
    · cases before <;> cases h
    · exact h.1
  | cons r rs ih =>
    rw [List.foldl_cons, ih, lastPair_cons]
    cases r with
    | label p q => simp [putPair]
    | pair a b =>
      simp only [putPair, mapGet_put]
      by_cases ha : p = a
      · subst ha
        simp
        intro _ h
        exact absurd rfl (h b.1 b.2).1
      · have ha' : a ≠ p := fun h => ha h.symm
        simp [ha, ha']

theorem labelMap_get (rs : List Request) (x y : Sym) : mapGet (labelMap rs) x = some y ↔ LastLabel rs x y := by
  have e : labelMap rs = rs.foldl putLabel [] := by
    unfold labelMap
    congr 1
  rw [e, putLabel_get]
  simp [mapGet]

theorem pairMap_get (rs : List Request) (p q : Sym × Sym) : mapGet (pairMap rs) p = some q ↔ LastPair rs p q := by
  have e : pairMap rs = rs.foldl putPair [] := by
    unfold pairMap
    congr 1
  rw [e, putPair_get]
  simp [mapGet]

/-- **C98, -F with -R (partial)**: the substitutions of the lines are made one after the other in the order of the file.  Missing: the other
transducers of the archive (`C98_archive_violated`). -/
theorem C98_inOrder_partial (L : Library T) (lines : List Str) (rs : List Request) (h : Requests lines rs) (g : T) :
    ∃ w, substituteFile L true lines [g] = ⟨[w], .success⟩ ∧
      w = rs.foldl (fun t r => match r with | .label x y => L.label x y t | .pair p q => L.pair p q t) g := by
  refine ⟨rs.foldl (perform L) g, ?_, ?_⟩
  · simp only [substituteFile, fileLoop, readLines_requests h]
    rfl
  · congr 1

/-- **C98, -F without -R (partial)**: first the symbols are replaced, all at once and each as its last line says; then the pairs, all at
once and each as its last line says.  What no line asks for is not done.  Missing: the other transducers of the archive
(`C98_archive_violated`) and "@0@" in the columns (`C98_zero_violated`). -/
theorem C98_file_partial (L : Library T) (lines : List Str) (rs : List Request) (h : Requests lines rs) (g : T) :
    ∃ (labels : List (Sym × Sym)) (pairs : List ((Sym × Sym) × (Sym × Sym))) (g1 w : T),
      substituteFile L false lines [g] = ⟨[w], .success⟩ ∧
      (∀ x y, mapGet labels x = some y ↔ LastLabel rs x y) ∧ (∀ p q, mapGet pairs p = some q ↔ LastPair rs p q) ∧
      ((∃ x y, .label x y ∈ rs) → g1 = L.labels labels g) ∧ ((∀ x y, .label x y ∉ rs) → g1 = g) ∧
      ((∃ p q, .pair p q ∈ rs) → w = L.pairs pairs g1) ∧ ((∀ p q, .pair p q ∉ rs) → w = g1) := by
  have ul : usesLabels rs = true ↔ ∃ x y, Request.label x y ∈ rs := by
    unfold usesLabels
    rw [List.any_eq_true]
    constructor
    · rintro ⟨r, hr, h⟩
      cases r with
      | label x y => exact ⟨x, y, hr⟩
      | pair p q => cases h
    · rintro ⟨x, y, h⟩; exact ⟨_, h, rfl⟩
  have up : usesPairs rs = true ↔ ∃ p q, Request.pair p q ∈ rs := by
    unfold usesPairs
    rw [List.any_eq_true]
    constructor
    · rintro ⟨r, hr, h⟩
      cases r with
      | label x y => cases h
      | pair p q => exact ⟨p, q, hr⟩
    · rintro ⟨x, y, h⟩; exact ⟨_, h, rfl⟩
  refine ⟨labelMap rs, pairMap rs, if usesLabels rs then L.labels (labelMap rs) g else g, together L rs g, ?_, labelMap_get rs, pairMap_get rs,
    fun h => if_pos (ul.2 h), fun h => ?_, fun h => ?_, fun h => ?_⟩
  · simp only [substituteFile, fileLoop, readLines_requests h]
    rfl
  · exact if_neg fun hu => by obtain ⟨x, y, hm⟩ := ul.1 hu; exact h x y hm
  · exact if_pos (up.2 h)
  · exact if_neg fun hu => by obtain ⟨x, y, hm⟩ := up.1 hu; exact h x y hm

/-- **C98, a wrong line**: a line with an empty column, or a line without a tab that is neither empty nor a comment, makes the tool fail
before anything is written. -/
theorem C98_wrong_line (L : Library T) (inOrder : Bool) (before : List Str) (rs : List Request) (h : Requests before rs) (l : Str)
    (after : List Str) (hl : (l ≠ [] ∧ '\t' ∉ l ∧ ¬ Ignored l ∧ ∀ r, l ≠ '\n' :: r) ∨
      ∃ x y, Columns l x y ∧ ¬ Hangs x ∧ ¬ Hangs y ∧ (x = [] ∨ y = [])) (g : T) (gs : List T) :
    substituteFile L inOrder (before ++ l :: after) (g :: gs) = ⟨[], .failure⟩ := by
  have e : readLine l = .error := by
    rcases hl with ⟨h1, h2, h3, h4⟩ | ⟨x, y, h1, h2, h3, h4⟩
    · cases l with
      | nil => exact absurd rfl h1
      | cons c cs =>
        have hc : c ≠ '\n' := fun e => h4 cs (by rw [e])
        have hc' : c ≠ '#' := fun e => h3 (Or.inr ⟨cs, fun hm => h2 (List.mem_cons_of_mem _ hm), by rw [e]⟩)
        unfold readLine
        rw [cutLine_none _ h2]
        simp [hc, hc']
    · rw [readLine_columns h1]
      rcases labelPair_cases x h2 with ⟨e1, e1'⟩ | ⟨a, b, e1, e1'⟩ <;> rcases labelPair_cases y h3 with ⟨e2, e2'⟩ | ⟨c, d, e2, e2'⟩
      all_goals simp only [e1, e2, if_pos h4]
  simp only [substituteFile, fileLoop, readLines_error h l after e]

theorem fileLoop_rest (L : Library T) (inOrder : Bool) (gs : List T) : fileLoop L inOrder [] gs = ⟨gs, .success⟩ := by
  induction gs with
  | nil => rfl
  | cons g gs ih =>
    simp only [fileLoop, readLines, ih]
    cases inOrder <;> rfl

/-- **C98, the archive (violated)**: with -F only the first transducer of the archive is changed; all others are written as they were,
whatever the file asks for. -/
theorem C98_archive_violated (L : Library T) (inOrder : Bool) (lines : List Str) (rs : List Request) (h : Requests lines rs) (g : T)
    (gs : List T) : ∃ w, substituteFile L inOrder lines (g :: gs) = ⟨w :: gs, .success⟩ := by
  refine ⟨if inOrder then rs.foldl (perform L) g else together L rs g, ?_⟩
  simp only [substituteFile, fileLoop, readLines_requests h, fileLoop_rest]
  rfl

/-- **C98, epsilon in a file (violated)**: the error message says that @0@ can be used for epsilon (tools/src/hfst-substitute.cc:700-703).
With -f it is replaced, but in a file it is a symbol of that name: the same request means two different things. -/
theorem C98_zero_violated (L : Library T) (y : Str) (hy : y ≠ []) (hn : '\n' ∉ y) (hh : ¬ Hangs y) (hz : y ≠ "@0@".toList) (g : T) :
    substituteOption L "@0@".toList y [g] = ⟨[L.label epsilon y g], .success⟩ ∧
    substituteFile L true [("@0@".toList ++ '\t' :: y)] [g] = ⟨[L.label "@0@".toList y g], .success⟩ ∧
    "@0@".toList ≠ epsilon := by
  have hx : ¬ Hangs "@0@".toList := by rintro ⟨c, r, h⟩; cases h
  have np : ¬ ∃ p, IsPair "@0@".toList p := by
    rintro ⟨p, a, b, h, _⟩
    have : ':' ∈ "@0@".toList := by rw [h.1.1]; simp
    revert this
    decide
  refine ⟨?_, ?_, by decide +kernel⟩
  · have := (C98_options L "@0@".toList y (by decide) hy hx hh [g]).2 fun h => np h.1
    rw [if_pos rfl, if_neg hz] at this
    exact this
  · have ha : Asks ("@0@".toList ++ '\t' :: y) (.label "@0@".toList y) :=
      ⟨⟨by decide, by decide, hn, Or.inl rfl⟩, by decide, hy, hx, hh, fun h => np h.1⟩
    obtain ⟨w, h1, h2⟩ := C98_inOrder_partial L _ _ (.asks ha .nil) g
    rw [h1, h2]
    rfl

end Tool
end Hfst.Subst
