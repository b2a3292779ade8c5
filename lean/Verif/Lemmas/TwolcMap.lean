import Verif.Lemmas.TwolcVars
import Mathlib.Data.List.Lex
import Mathlib.Data.Char
import Mathlib.Data.List.Perm.Basic

/-!
# Values of variables in a map, and what is written with them
-/
namespace Hfst.Twolc
open Hfst.Basic (Outcome)

/-- The pairs are in the order of their keys. -/
abbrev InKeyOrder (m : Assigned) : Prop := m.Pairwise fun a b => a.1 < b.1

theorem str_trichotomy (a b : Str) (h1 : ¬ a < b) (h2 : a ≠ b) : b < a := by
  rcases lt_trichotomy a b with h | h | h
  · exact absurd h h1
  · exact absurd h h2
  · exact h

theorem mem_put (m : Assigned) (k v : Str) (h : InKeyOrder m) (e : Str × Str) :
    e ∈ put m k v ↔ e = (k, v) ∨ (e.1 ≠ k ∧ e ∈ m) := by
  induction m with
  | nil => simp [put]
  | cons a m ih =>
    obtain ⟨ha, hm⟩ := List.pairwise_cons.1 h
    rw [put]
    split
    · next h1 =>
      have : ∀ e ∈ a :: m, e.1 ≠ k := by
        intro e he hk
        rcases List.mem_cons.1 he with rfl | he
        · exact absurd h1 (by rw [hk]; exact lt_irrefl _)
        · have := lt_trans h1 (ha e he); rw [hk] at this; exact lt_irrefl _ this
      rw [List.mem_cons]
      exact or_congr_right ⟨fun h => ⟨this e h, h⟩, fun h => h.2⟩
    · next h1 =>
      split
      · next h2 =>
        subst h2
        have : ∀ e ∈ m, e.1 ≠ a.1 := fun e he hk => by have := ha e he; rw [hk] at this; exact lt_irrefl _ this
        rw [List.mem_cons]
        refine or_congr_right ⟨fun h => ⟨this e h, List.mem_cons_of_mem _ h⟩, ?_⟩
        rintro ⟨h3, h4⟩
        rcases List.mem_cons.1 h4 with rfl | h4
        · exact absurd rfl h3
        · exact h4
      · next h2 =>
        rw [List.mem_cons, ih hm, List.mem_cons]
        constructor
        · rintro (rfl | h | h)
          · exact .inr ⟨fun h => h2 h.symm, .inl rfl⟩
          · exact .inl h
          · exact .inr ⟨h.1, .inr h.2⟩
        · rintro (h | ⟨h3, rfl | h4⟩)
          · exact .inr (.inl h)
          · exact .inl rfl
          · exact .inr (.inr ⟨h3, h4⟩)

theorem put_order (m : Assigned) (k v : Str) (h : InKeyOrder m) : InKeyOrder (put m k v) := by
  induction m with
  | nil => simp [put, InKeyOrder]
  | cons a m ih =>
    obtain ⟨ha, hm⟩ := List.pairwise_cons.1 h
    rw [put]
    split
    · next h1 =>
      refine List.pairwise_cons.2 ⟨?_, h⟩
      intro e he
      rcases List.mem_cons.1 he with rfl | he
      · exact h1
      · exact lt_trans h1 (ha e he)
    · next h1 =>
      split
      · next h2 => exact List.pairwise_cons.2 ⟨fun e he => by rw [h2]; exact ha e he, hm⟩
      · next h2 =>
        refine List.pairwise_cons.2 ⟨?_, ih hm⟩
        intro e he
        rw [mem_put m k v hm] at he
        rcases he with rfl | he
        · exact str_trichotomy _ _ h1 h2
        · exact ha e he.2

/-- Values set one after the other. -/
def putAll (m ps : Assigned) : Assigned := ps.foldl (fun m p => put m p.1 p.2) m

theorem putAll_order (ps m : Assigned) (h : InKeyOrder m) : InKeyOrder (putAll m ps) := by
  induction ps generalizing m with
  | nil => exact h
  | cons p ps ih => exact ih _ (put_order _ _ _ h)

theorem mem_putAll (ps m : Assigned) (h : InKeyOrder m) (hn : (ps.map (·.1)).Nodup) (e : Str × Str) :
    e ∈ putAll m ps ↔ e ∈ ps ∨ (e.1 ∉ ps.map (·.1) ∧ e ∈ m) := by
  induction ps generalizing m with
  | nil => simp [putAll]
  | cons p ps ih =>
    rw [List.map_cons, List.nodup_cons] at hn
    show e ∈ putAll (put m p.1 p.2) ps ↔ _
    rw [ih _ (put_order _ _ _ h) hn.2, mem_put _ _ _ h]
    simp only [List.mem_cons, List.map_cons, not_or]
    constructor
    · rintro (h1 | ⟨h1, h2 | h2⟩)
      · exact .inl (.inr h1)
      · exact .inl (.inl h2)
      · exact .inr ⟨⟨h2.1, h1⟩, h2.2⟩
    · rintro ((rfl | h1) | ⟨⟨h1, h2⟩, h3⟩)
      · exact .inr ⟨hn.1, .inl rfl⟩
      · exact .inl h1
      · exact .inr ⟨h2, .inr ⟨h1, h3⟩⟩

theorem order_nodup (m : Assigned) (h : InKeyOrder m) : m.Nodup :=
  h.imp fun {a b} hab he => by rw [he] at hab; exact lt_irrefl _ hab

theorem order_keys (m : Assigned) (h : InKeyOrder m) (k v w : Str) (h1 : (k, v) ∈ m) (h2 : (k, w) ∈ m) : v = w := by
  induction m with
  | nil => cases h1
  | cons a m ih =>
    obtain ⟨ha, hm⟩ := List.pairwise_cons.1 h
    rcases List.mem_cons.1 h1 with rfl | h1 <;> rcases List.mem_cons.1 h2 with h2 | h2
    · exact (congrArg Prod.snd h2).symm
    · exact absurd (ha _ h2) (lt_irrefl _)
    · subst h2
      exact absurd (ha (k, v) (by assumption)) (lt_irrefl _)
    · exact ih hm h1 h2

theorem find?_some (m : Assigned) (h : InKeyOrder m) (k v : Str) (hk : (k, v) ∈ m) : find? m k = some v := by
  rw [find?]
  cases hf : m.find? fun e => e.1 == k with
  | none =>
    rw [List.find?_eq_none] at hf
    exact absurd (hf _ hk) (by simp)
  | some e =>
    have h1 := List.find?_some hf
    have h2 := List.mem_of_find?_eq_some hf
    simp only [beq_iff_eq] at h1
    simp only [Option.map_some, Option.some.injEq]
    subst h1
    exact order_keys m h e.1 e.2 v h2 hk

theorem find?_none (m : Assigned) (k : Str) (hk : k ∉ m.map (·.1)) : find? m k = none := by
  rw [find?]
  cases hf : m.find? fun e => e.1 == k with
  | none => rfl
  | some e =>
    have h1 := List.find?_some hf
    simp only [beq_iff_eq] at h1
    exact absurd (List.mem_map.2 ⟨e, List.mem_of_find?_eq_some hf, h1⟩) hk

/-! ## What is written -/

theorem occursIn_iff (p s : Str) : occursIn p s = true ↔ p <:+: s := by
  induction s with
  | nil => simp [occursIn]
  | cons c r ih => rw [occursIn, Bool.or_eq_true, ih, List.infix_cons_iff, List.isPrefixOf_iff_prefix]

theorem insertBeforeLast_eq (s t : Str) (l : Char) : insertBeforeLast (s ++ [l]) t = (s ++ t) ++ [l] := by
  simp [insertBeforeLast]

/-- A variable with its value, as it is put into the name of a rule. -/
def inName (e : Str × Str) : Str := spaceMark ++ e.1 ++ '=' :: e.2

theorem inName_eq : (fun e : Str × Str => "__HFST_TWOLC_SPACE".toList ++ e.1 ++ "=".toList ++ e.2) = inName := by
  funext e
  have h : "=".toList = ['='] := by decide
  unfold inName spaceMark
  generalize "__HFST_TWOLC_SPACE".toList = a
  simp only [h, List.append_assoc, List.cons_append, List.nil_append]

theorem fold_insert (m : Assigned) (s : Str) (l : Char) :
    m.foldl (fun s e => insertBeforeLast s (spaceMark ++ e.1 ++ '=' :: e.2)) (s ++ [l]) = s ++ m.flatMap inName ++ [l] := by
  induction m generalizing s with
  | nil => simp
  | cons e m ih =>
    rw [List.foldl_cons, insertBeforeLast_eq, ih]
    simp [inName, List.flatMap_cons]

theorem length_inNames (m : Assigned) (e : Str × Str) (h : e ∈ m) : e.1.length < (m.flatMap inName).length := by
  induction m with
  | nil => cases h
  | cons a m ih =>
    rw [List.flatMap_cons, List.length_append]
    rcases List.mem_cons.1 h with rfl | h
    · have : (inName e).length = spaceMark.length + (e.1.length + (e.2.length + 1)) := by simp [inName]
      rw [this]; omega
    · have := ih h; omega

theorem replaceSymbol_spec (m values : Assigned) (h : InKeyOrder m) (hp : m.Perm values) (s : Str) :
    ∃ out, Written values s out ∧ replaceSymbol m s = out ++ " ".toList := by
  by_cases hn : nameMark <:+: s
  · have hne : s ≠ [] := by
      rintro rfl
      rw [List.infix_nil] at hn
      exact absurd hn (by decide)
    obtain ⟨t, l, rfl⟩ : ∃ t l, s = t ++ [l] := ⟨s.dropLast, s.getLast hne, (List.dropLast_append_getLast hne).symm⟩
    have hnil : m = [] ↔ values = [] := ⟨fun h => by subst h; exact hp.nil_eq.symm, fun h => by subst h; exact hp.eq_nil⟩
    refine ⟨t ++ (if values = [] then [] else "__HFST_TWOLC_SPACESUBCASE:".toList) ++ m.flatMap inName ++ [l], ⟨fun hc => absurd hn hc, fun _ =>
      ⟨m, hp, h, l, by simp, ?_⟩⟩, ?_⟩
    · rw [List.dropLast_concat, inName_eq]
    · rw [replaceSymbol]
      have h1 : occursIn nameMark (t ++ [l]) = true := (occursIn_iff _ _).2 hn
      have h2 : (m.foldl (fun s e => insertBeforeLast s (spaceMark ++ e.1 ++ '=' :: e.2))
          (if m = [] then t ++ [l] else insertBeforeLast (t ++ [l]) (spaceMark ++ "SUBCASE:".toList))) =
          t ++ (if values = [] then [] else "__HFST_TWOLC_SPACESUBCASE:".toList) ++ m.flatMap inName ++ [l] := by
        by_cases hm : m = []
        · rw [if_pos hm, if_pos (hnil.1 hm), hm]; simp
        · rw [if_neg hm, if_neg (fun h => hm (hnil.2 h)), insertBeforeLast_eq, fold_insert]; rfl
      simp only [h1, if_true, h2]
      rw [find?_none]
      · rfl
      · intro hk
        rw [List.mem_map] at hk
        obtain ⟨e, he, hk⟩ := hk
        have h3 := length_inNames m e he
        have h4 := congrArg List.length hk
        simp only [List.length_append] at h4
        omega
  · have h1 : occursIn nameMark s = false := by
      cases ho : occursIn nameMark s with
      | false => rfl
      | true => exact absurd ((occursIn_iff _ _).1 ho) hn
    have h2 : ∀ v, (s, v) ∈ values → find? m s = some v := fun v hv => find?_some m h s v (hp.mem_iff.2 hv)
    refine ⟨(find? m s).getD s, ⟨fun _ => ⟨fun v hv => by rw [h2 v hv]; rfl, fun hs => ?_⟩, fun hc => absurd hc hn⟩, ?_⟩
    · rw [find?_none]
      · rfl
      · intro hk
        rw [List.mem_map] at hk
        obtain ⟨e, he, hk⟩ := hk
        exact hs (List.mem_map.2 ⟨e, hp.mem_iff.1 he, hk⟩)
    · simp only [replaceSymbol, h1, Bool.false_eq_true, if_false]
      cases find? m s <;> rfl

theorem replaceVariables_spec (m values : Assigned) (h : InKeyOrder m) (hp : m.Perm values) (symbols : List Str) :
    WrittenRule symbols values (replaceVariables m symbols) := by
  induction symbols with
  | nil => exact ⟨[], .nil, rfl⟩
  | cons s r ih =>
    obtain ⟨outs, h1, h2⟩ := ih
    obtain ⟨out, h3, h4⟩ := replaceSymbol_spec m values h hp s
    refine ⟨out :: outs, .cons h3 h1, ?_⟩
    rw [replaceVariables, List.flatMap_cons, h4, List.flatMap_cons]
    rw [replaceVariables] at h2
    rw [h2]

end Hfst.Twolc
