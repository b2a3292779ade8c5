import Verif.Props.LexcMain

/-!
# C71: a compiled lexicon accepts the chains of its entries
-/
namespace Hfst.Lexc
open Hfst.Basic
open Hfst.Basic.Graph (init)
open Hfst.Tok (Bytes Byte Ok Cut)

theorem nameOk_of_all {n : Bytes} (h : n.all (fun x => decide (x ≠ 36) && decide (x ≠ 0) && decide (x ≠ 255) && decide (x ≠ 64)) = true) :
    NameOk n := by
  rw [List.all_eq_true] at h
  constructor
  · intro x hx
    have := h x hx
    simp only [Bool.and_eq_true, decide_eq_true_eq] at this
    exact ⟨this.1.1.1, this.1.1.2, this.1.2⟩
  · intro hx
    have := h 64 hx
    simp at this

theorem hash_ok : NameOk (lit "#") := nameOk_of_all (by decide)

theorem create_core (b : Bool) : Core (Compiler.create b) [] where
  regs := by
    intro r hr
    rcases List.mem_append.mp hr with hr | hr
    · have : ∀ r ∈ baseRegs, ∀ x ∈ r, x ≠ 36 ∧ x ≠ 0 ∧ x ≠ 255 := by decide
      have hp : Plain r := this r hr
      exact ⟨hp.ok, .inl hp⟩
    · simp only [List.mem_singleton] at hr
      rw [hr]; exact ⟨joiner_ok hash_ok, .inr (joiner_atom hash_ok).internal⟩
  from_regs := by
    intro q h1 h2 h3
    rcases List.mem_append.mp h3 with h3 | h3
    · have : ∀ r ∈ baseRegs, r ∈ baseSymbols := by decide
      exact this q h3
    · simp only [List.mem_singleton] at h3
      obtain ⟨v, hv⟩ := (joiner_atom hash_ok).internal.head
      exact absurd rfl (h1 36 (by rw [h3, hv]; simp)).1
  to_regs := by intro q hq; exact List.mem_append_left _ hq
  alph := by intro q; exact Iff.rfl
  plain := by intro q hq; cases hq

theorem reset_core (c : Compiler) : Core c.reset [] where
  regs := by
    intro r hr
    have : ∀ r ∈ baseRegs, ∀ x ∈ r, x ≠ 36 ∧ x ≠ 0 ∧ x ≠ 255 := by decide
    have hp : Plain r := this r hr
    exact ⟨hp.ok, .inl hp⟩
  from_regs := by
    intro q h1 h2 h3
    have : ∀ r ∈ baseRegs, r ∈ baseSymbols := by decide
    exact this q h3
  to_regs := by intro q hq; exact hq
  alph := by intro q; exact Iff.rfl
  plain := by intro q hq; cases hq

theorem create_inv (cfg : Config) (b : Bool) : Inv cfg b true (Compiler.create b) [] [] [] [] where
  core := create_core b
  current := rfl
  trie := rfl
  rel := by intro z hz; cases hz
  hashreg := fun _ => List.mem_append_right _ (List.mem_singleton.mpr rfl)
  keys := by intro e he; cases he
  graphs := by intro k U h; cases h
  has := by intro z hz; cases hz
  names := by intro n; simp [Compiler.create]
  initial := by cases b <;> rfl
  first := by simp [Compiler.create]
  errors := fun _ => rfl

theorem reset_inv (cfg : Config) (c : Compiler) : Inv cfg c.first false c.reset [] [] [] [] where
  core := reset_core c
  current := rfl
  trie := rfl
  rel := by intro z hz; cases hz
  hashreg := by intro h; cases h
  keys := by intro e he; cases he
  graphs := by intro k U h; cases h
  has := by intro z hz; cases hz
  names := by intro n; simp [Compiler.create, Compiler.reset]
  initial := by
    show lit "Root" = _
    cases c.first <;> rfl
  first := by simp [Compiler.create, Compiler.reset]
  errors := fun _ => rfl

theorem mem_lexiconNames {calls : List Call} {n : Bytes} (h : n ∈ lexiconNames calls) : Call.lexicon n ∈ calls := by
  induction calls with
  | nil => cases h
  | cons x xs ih =>
    cases x with
    | lexicon m =>
      rcases List.mem_cons.mp h with rfl | h
      · simp
      · exact List.mem_cons_of_mem _ (ih h)
    | noFlag _ => exact List.mem_cons_of_mem _ (ih h)
    | multichar _ => exact List.mem_cons_of_mem _ (ih h)
    | string _ _ _ => exact List.mem_cons_of_mem _ (ih h)
    | pair _ _ _ _ => exact List.mem_cons_of_mem _ (ih h)
    | regexp _ _ _ => exact List.mem_cons_of_mem _ (ih h)

theorem start_eq {b : Bool} {calls : List Call} (hb : b = true ∨ lit "Root" ∈ lexiconNames calls) :
    startOf b (lexiconNames calls) = startLexicon calls := by
  unfold startOf startLexicon
  split
  · rfl
  · rename_i h
    rw [if_pos (hb.resolve_right h)]

theorem start_mem {calls : List Call} (h : lexiconNames calls ≠ []) : startLexicon calls ∈ lexiconNames calls := by
  unfold startLexicon
  split
  · assumption
  · cases hn : lexiconNames calls with
    | nil => exact absurd hn h
    | cons n ns => simp

theorem ready_of_inv {cfg : Config} {b hash : Bool} {c : Compiler} {calls : List Call} {es : List Entry} {known : List Bytes}
    {lex : Bytes} {zs : List (Entry × Item)} (h : Inv cfg b hash c known lex zs (lexiconNames calls)) (hz : zs.map (·.1) = es)
    (hc : Clean cfg calls es known) (hb : b = true ∨ lit "Root" ∈ lexiconNames calls)
    (hh : hash = true ∨ ∃ e ∈ es, e.cont = lit "#") : Ready c (zs.map (·.2)) := by
  have hname : ∀ n ∈ lexiconNames calls, NameOk n := fun n hn => hc.lines _ (mem_lexiconNames hn)
  have hzs : ∀ e ∈ es, ∃ it, (e, it) ∈ zs := by
    intro e he
    rw [← hz] at he
    obtain ⟨z, hz, rfl⟩ := List.mem_map.mp he
    exact ⟨z.2, hz⟩
  have hes : ∀ z ∈ zs, z.1 ∈ es := by
    intro z hz'
    rw [← hz]
    exact List.mem_map.mpr ⟨z, hz', rfl⟩
  have hhash : joiner (lit "#") ∈ c.regs := by
    rcases hh with hh | ⟨e, he, hh⟩
    · exact h.hashreg hh
    · obtain ⟨it, hm⟩ := hzs e he
      have := (h.rel _ hm).2.2
      rw [hh] at this
      exact this
  refine ⟨h.core.regs, ?_, ?_, ?_, ?_, ?_, h.keys, ?_⟩
  · rw [List.map_map]; exact h.trie
  · intro n hn
    rcases (h.names n).mp hn with rfl | hn
    · exact ⟨hash_ok, hhash⟩
    · refine ⟨hname n hn, ?_⟩
      obtain ⟨e, he, rfl⟩ := hc.filled n hn
      obtain ⟨it, hm⟩ := hzs e he
      exact (h.rel _ hm).2.1
  · exact (h.names _).mpr (.inl rfl)
  · rw [h.initial, start_eq hb]
    exact (h.names _).mpr (.inr (start_mem hc.some_lexicon))
  · intro it hit
    obtain ⟨z, hz', rfl⟩ := List.mem_map.mp hit
    obtain ⟨r, _, _⟩ := h.rel z hz'
    refine ⟨?_, by rw [r.cont]; exact r.name, ?_⟩
    · rw [r.lex]
      exact (h.names _).mpr (.inr (hc.inside _ (hes z hz')))
    · rcases r.raw with ⟨r1, r2⟩ | ⟨_, r2, _⟩
      · right
        rw [r.lex, r.cont]
        exact ⟨r2, h.has z hz' r1⟩
      · exact .inl r2
  · intro k U hU
    obtain ⟨h1, h2, _⟩ := h.graphs k U hU
    exact ⟨h1, h2⟩

section Chains
variable {cfg : Config} {b hash : Bool} {c : Compiler} {calls : List Call} {es : List Entry} {known : List Bytes}
  {lex : Bytes} {zs : List (Entry × Item)}

theorem mem_collected {e : Entry} : e ∈ collected es ↔ (e ∈ es ∧ e.regexp = false) ∨
    ∃ d ∈ es, ∃ d' ∈ es, d.regexp = true ∧ d'.regexp = true ∧
      d'.lex ++ lit "_" ++ d'.cont = d.lex ++ lit "_" ++ d.cont ∧ e = { d with lang := d'.lang } := by
  simp only [collected, List.mem_flatMap]
  constructor
  · rintro ⟨d, hd, h⟩
    split at h
    · rename_i hx
      obtain ⟨d', hd', rfl⟩ := List.mem_map.mp h
      simp only [List.mem_filter, Bool.and_eq_true, decide_eq_true_eq] at hd'
      exact .inr ⟨d, hd, d', hd'.1, hx, hd'.2.1, hd'.2.2, rfl⟩
    · rename_i hx
      simp only [List.mem_singleton] at h
      subst h
      exact .inl ⟨hd, by simpa using hx⟩
  · rintro (⟨he, hx⟩ | ⟨d, hd, d', hd', hx, hx', hk, rfl⟩)
    · exact ⟨e, he, by simp [hx]⟩
    · refine ⟨d, hd, ?_⟩
      rw [if_pos hx]
      exact List.mem_map.mpr ⟨d', by simp only [List.mem_filter, hd', hx', hk, Bool.true_and, decide_true, and_self], rfl⟩

theorem itemLang_entry (h : Inv cfg b hash c known lex zs (lexiconNames calls)) (hz : zs.map (·.1) = es)
    {it : Item} (hi : it ∈ zs.map (·.2)) {l : List (Sym × Sym)} {v : Int}
    (hl : ItemLang c it l v) : ∃ e ∈ collected es, e.lex = it.lex ∧ e.cont = it.cont ∧ e.weight = it.w ∧ e.lang l v := by
  obtain ⟨z, hz', rfl⟩ := List.mem_map.mp hi
  have hes : ∀ z ∈ zs, z.1 ∈ es := by
    intro z hz'
    rw [← hz]
    exact List.mem_map.mpr ⟨z, hz', rfl⟩
  obtain ⟨r, _, _⟩ := h.rel z hz'
  rcases hl with ⟨hb, U, hU, hcost⟩ | ⟨ht, rfl, rfl⟩
  · obtain ⟨_, _, h3⟩ := h.graphs _ U hU
    obtain ⟨y, hy, y1, y2, y3⟩ := (h3 l v).mp hcost
    rcases r.raw with ⟨r1, _⟩ | ⟨_, r2, _⟩
    · have hk : y.1.lex ++ lit "_" ++ y.1.cont = z.1.lex ++ lit "_" ++ z.1.cont := by
        rw [r.lex, r.cont] at y2
        exact append_left_cancel_lit y2
      exact ⟨{ z.1 with lang := y.1.lang }, mem_collected.mpr (.inr ⟨z.1, hes z hz', y.1, hes y hy, r1, y1, hk, rfl⟩),
        r.lex.symm, r.cont.symm, r.w.symm, y3⟩
    · exfalso
      have : keyPair z.2.lex z.2.cont ∈ z.2.body := by rw [hb]; simp
      obtain ⟨hm, _⟩ := mem_strip.mp this
      obtain ⟨p, hp, he⟩ := List.mem_map.mp hm
      have t := small_txt (r2 p hp).1
      have e1 : (smallSubstitutions.lookup p.1).getD p.1 = sym (regKey z.2.lex z.2.cont) := congrArg Prod.fst he
      rw [e1] at t
      exact t.not_dollar (dollar_regKey _ _)
  · rcases r.raw with ⟨_, r2⟩ | ⟨r0, _, r3⟩
    · exfalso
      have hb : z.2.body = [keyPair z.1.lex z.1.cont] := by
        unfold Item.body
        rw [r2, List.map_singleton, keyPair, ren_dollar (dollar_regKey _ _) (dollar_regKey _ _)]
        exact strip_cons (keyPair_ne _ _) []
      exact (ht (keyPair z.1.lex z.1.cont) (by rw [hb]; simp)).1.not_dollar (dollar_regKey _ _)
    · exact ⟨z.1, mem_collected.mpr (.inl ⟨hes z hz', r0⟩), r.lex.symm, r.cont.symm, r.w.symm, (r3 _ _).mpr ⟨rfl, Int.le_refl _⟩⟩

theorem entry_itemLang (h : Inv cfg b hash c known lex zs (lexiconNames calls)) (hz : zs.map (·.1) = es)
    {e : Entry} (he : e ∈ collected es) {l : List (Sym × Sym)} {v : Int} (hl : e.lang l v) :
    ∃ it ∈ zs.map (·.2), it.lex = e.lex ∧ it.cont = e.cont ∧ it.w = e.weight ∧ ∃ v', ItemLang c it l v' ∧ v' ≤ v := by
  have hzs : ∀ e ∈ es, ∃ it, (e, it) ∈ zs := by
    intro e he
    rw [← hz] at he
    obtain ⟨z, hz, rfl⟩ := List.mem_map.mp he
    exact ⟨z.2, hz⟩
  rcases mem_collected.mp he with ⟨he, hx⟩ | ⟨d, hd, d', hd', hx, hx', hk, rfl⟩
  · obtain ⟨it, hm⟩ := hzs e he
    obtain ⟨r, _, _⟩ := h.rel _ hm
    refine ⟨it, List.mem_map.mpr ⟨_, hm, rfl⟩, r.lex, r.cont, r.w, ?_⟩
    rcases r.raw with ⟨r1, _⟩ | ⟨_, r2, r3⟩
    · rw [hx] at r1; cases r1
    · obtain ⟨rfl, hv⟩ := (r3 l v).mp hl
      refine ⟨0, .inr ⟨?_, rfl, rfl⟩, hv⟩
      intro p hp
      obtain ⟨hm, _⟩ := mem_strip.mp hp
      obtain ⟨q, hq, rfl⟩ := List.mem_map.mp hm
      exact ⟨small_txt (r2 q hq).1, small_txt (r2 q hq).2⟩
  · obtain ⟨it, hm⟩ := hzs d hd
    obtain ⟨it', hm'⟩ := hzs d' hd'
    obtain ⟨r, _, _⟩ := h.rel _ hm
    refine ⟨it, List.mem_map.mpr ⟨_, hm, rfl⟩, r.lex, r.cont, r.w, ?_⟩
    rcases r.raw with ⟨r1, r2⟩ | ⟨r1, _⟩
    · have hb : it.body = [keyPair d.lex d.cont] := by
        unfold Item.body
        rw [r2, List.map_singleton, keyPair, ren_dollar (dollar_regKey _ _) (dollar_regKey _ _)]
        exact strip_cons (keyPair_ne _ _) []
      obtain ⟨U, hU⟩ := Option.isSome_iff_exists.mp (h.has _ hm hx)
      obtain ⟨_, _, h3⟩ := h.graphs _ U hU
      refine ⟨v, .inl ⟨by rw [r.lex, r.cont]; exact hb, U, by rw [r.lex, r.cont]; exact hU,
        (h3 l v).mpr ⟨_, hm', hx', ?_, hl⟩⟩, Int.le_refl _⟩
      simp only [regKey, hk]
    · rw [hx] at r1; cases r1

theorem linked_chain (h : Inv cfg b hash c known lex zs (lexiconNames calls)) (hz : zs.map (·.1) = es) (its : List Item) (hne : its ≠ []) (hi : ∀ it ∈ its, it ∈ zs.map (·.2)) {n : Bytes}
    (hl : Linked n its) {l : List (Sym × Sym)} {v w : Int} (hcl : ChainLang c its l v) (hw : total its + v ≤ w) :
    Chain (collected es) n l w := by
  induction its generalizing n l v w with
  | nil => exact absurd rfl hne
  | cons it its ih =>
    obtain ⟨rfl, hl⟩ := hl
    cases hcl with
    | @cons _ _ l₁ l₂ v₁ v₂ h1 h2 =>
      obtain ⟨e, he, e1, e2, e3, e4⟩ := itemLang_entry h hz (hi it (by simp)) h1
      simp only [total] at hw
      rw [← e1]
      cases its with
      | nil =>
        cases h2
        rw [List.append_nil]
        simp only [Linked] at hl
        exact .last he (e2.trans hl) e4 (by simp only [total] at hw; omega)
      | cons jt its =>
        have := ih (by simp) (fun x hx => hi x (by simp [hx])) hl h2 (w := total (jt :: its) + v₂) (Int.le_refl _)
        rw [← e2] at this
        exact .more he e4 this (by omega)

theorem chain_linked (h : Inv cfg b hash c known lex zs (lexiconNames calls)) (hz : zs.map (·.1) = es)
    {n : Bytes} {l : List (Sym × Sym)} {w : Int} (hch : Chain (collected es) n l w) :
    ∃ its : List Item, (∀ it ∈ its, it ∈ zs.map (·.2)) ∧ Linked n its ∧ ∃ v, ChainLang c its l v ∧ total its + v ≤ w := by
  induction hch with
  | @last e l v w he hk hl hw =>
    obtain ⟨it, i1, i2, i3, i4, v', i5, i6⟩ := entry_itemLang h hz he hl
    refine ⟨[it], by simpa using i1, ⟨i2, i3.trans hk⟩, v' + 0, ?_, ?_⟩
    · have := ChainLang.cons i5 (ChainLang.nil (c := c))
      simpa using this
    · simp only [total]; omega
  | @more e l l' v w w' he hl _ hw ih =>
    obtain ⟨its, j1, j2, u, j3, j4⟩ := ih
    obtain ⟨it, i1, i2, i3, i4, v', i5, i6⟩ := entry_itemLang h hz he hl
    refine ⟨it :: its, ?_, ⟨i2, by rw [i3]; exact j2⟩, v' + u, .cons i5 j3, ?_⟩
    · intro x hx
      rcases List.mem_cons.mp hx with rfl | hx
      · exact i1
      · exact j1 x hx
    · simp only [total]; omega

/-- If the keys of regular expressions are apart, the compiler makes of the entries what they are. -/
theorem chain_collected (hk : KeysApart es) {n : Bytes} {l : List (Sym × Sym)} {w : Int} :
    Chain (collected es) n l w ↔ Chain es n l w := by
  have up : ∀ e ∈ es, ∃ e' ∈ collected es, e'.lex = e.lex ∧ e'.cont = e.cont ∧ e'.weight = e.weight ∧ e'.lang = e.lang := by
    intro e he
    cases hx : e.regexp with
    | false => exact ⟨e, mem_collected.mpr (.inl ⟨he, hx⟩), rfl, rfl, rfl, rfl⟩
    | true => exact ⟨_, mem_collected.mpr (.inr ⟨e, he, e, he, hx, hx, rfl, rfl⟩), rfl, rfl, rfl, rfl⟩
  have down : ∀ e ∈ collected es, ∃ e' ∈ es, e'.lex = e.lex ∧ e'.cont = e.cont ∧ e'.weight = e.weight ∧ e'.lang = e.lang := by
    intro e he
    rcases mem_collected.mp he with ⟨he, _⟩ | ⟨d, hd, d', hd', hx, hx', hkk, rfl⟩
    · exact ⟨e, he, rfl, rfl, rfl, rfl⟩
    · obtain ⟨k1, k2⟩ := hk _ hd' _ hd hx' hx hkk
      rw [k1] at hkk
      exact ⟨d', hd', k1, List.append_cancel_left hkk, k2, rfl⟩
  have go : ∀ {as bs : List Entry}, (∀ e ∈ as, ∃ e' ∈ bs, e'.lex = e.lex ∧ e'.cont = e.cont ∧ e'.weight = e.weight ∧
      e'.lang = e.lang) → ∀ {n l w}, Chain as n l w → Chain bs n l w := by
    intro as bs hab n l w h
    induction h with
    | @last e l v w he hc hl hw =>
      obtain ⟨e', he', h1, h2, h3, h4⟩ := hab e he
      rw [← h1]
      exact .last he' (h2.trans hc) (by rw [h4]; exact hl) (by rw [h3]; exact hw)
    | @more e l l' v w w' he hl _ hw ih =>
      obtain ⟨e', he', h1, h2, h3, h4⟩ := hab e he
      rw [← h1]
      exact .more he' (by rw [h4]; exact hl) (by rw [h2]; exact ih) (by rw [h3]; exact hw)
  exact ⟨go down, go up⟩

end Chains

theorem compile_of_inv {cfg : Config} {B : Backend} (hB : B.Ok) {b hash : Bool} {c0 : Compiler} {calls : List Call}
    {es : List Entry} {known : List Bytes} (h0 : Inv cfg b hash c0 [] [] [] [])
    (hr : Reads cfg (fun g => (B.optimize g).alphabet) [] [] calls es known) (hc : Clean cfg calls es known)
    (hb : b = true ∨ lit "Root" ∈ lexiconNames calls) (hh : hash = true ∨ ∃ e ∈ es, e.cont = lit "#") :
    ∃ c, c0.run cfg B calls = .ok c ∧
      ((cfg.werror = true ∧ c.compile cfg B = .ok none) ∨
        ∃ g, c.compile cfg B = .ok (some g) ∧ ∀ l w, Cost g l w ↔
          Chain (collected es) (startLexicon calls) l w ∨ (startLexicon calls = lit "#" ∧ l = [] ∧ 0 ≤ w)) := by
  obtain ⟨c, lex', zs, r1, r2, r3⟩ := run_inv hB (b := b) (hash := hash) hr hc.plain c0 [] [] h0 hc.lines
    (fun e he => hc.lines _ (mem_lexiconNames (hc.inside e he))) hc.symbols
  simp only [List.nil_append] at r2
  refine ⟨c, r1, ?_⟩
  by_cases he : c.errors = true
  · left
    refine ⟨?_, by unfold Compiler.compile; rw [if_pos he]⟩
    cases hw : cfg.werror with
    | true => rfl
    | false => rw [r2.errors hw] at he; cases he
  have he : c.errors = false := by simpa using he
  by_cases hu : (c.unconnected && cfg.werror) = true
  · left
    refine ⟨by simp only [Bool.and_eq_true] at hu; exact hu.2, ?_⟩
    unfold Compiler.compile
    rw [if_neg (by simp [he]), if_pos hu]
  right
  have hready := ready_of_inv r2 r3 hc hb hh
  obtain ⟨g, g1, g2⟩ := compile_spec (cfg := cfg) hB hready he (by simpa using hu)
  refine ⟨g, g1, ?_⟩
  intro l w
  have hstart : c.initial = startLexicon calls := r2.initial.trans (start_eq hb)
  rw [g2, hstart]
  constructor
  · rintro ⟨its, h1, h2, v, h3, h4⟩
    cases its with
    | nil =>
      cases h3
      exact .inr ⟨h2, rfl, by simpa [total] using h4⟩
    | cons it its => exact .inl (linked_chain r2 r3 _ (by simp) h1 h2 h3 h4)
  · rintro (h | ⟨h1, rfl, h2⟩)
    · exact chain_linked r2 r3 h
    · exact ⟨[], by simp, h1, 0, .nil, by simpa [total] using h2⟩

/-- What the compiler does with every lexicon that satisfies `Clean`: the transducer accepts exactly the chains of entries,
where the regular expressions with the same key have been put together, and the empty sequence if words begin where they
end. -/
theorem C71_collected (cfg : Config) (B : Backend) (hB : B.Ok) (first : Bool) (calls : List Call) (es : List Entry)
    (known : List Bytes) (hr : Reads cfg (fun g => (B.optimize g).alphabet) [] [] calls es known)
    (hc : Clean cfg calls es known) (hb : first = true ∨ lit "Root" ∈ lexiconNames calls) :
    ∃ c, (Compiler.create first).run cfg B calls = .ok c ∧
      ((cfg.werror = true ∧ c.compile cfg B = .ok none) ∨
        ∃ g, c.compile cfg B = .ok (some g) ∧ ∀ l w, Cost g l w ↔
          Chain (collected es) (startLexicon calls) l w ∨ (startLexicon calls = lit "#" ∧ l = [] ∧ 0 ≤ w)) :=
  compile_of_inv hB (create_inv cfg first) hr hc hb (.inl rfl)

/-- **C71.**  A lexicon file compiled by a new compiler, with any settings (grapheme clusters or not, warnings or not), gives a
transducer that accepts exactly the chains of entries: one begins in `Root` (or in the first lexicon if there is no `Root`),
takes an entry, goes on in the lexicon it names and stops after an entry that continues with `#`.  The sequence is what the
entries stand for, put together, and its weight is the smallest sum of weights.  Nothing is compiled only if warnings
are errors.

What is missing from the full claim is in `Clean`, `KeysApart` and `startLexicon calls ≠ "#"` (conditions of the file format, or
cases with a counterexample in `LexcDemo`), in the requirement that the first compilation of the process is meant or that there is a lexicon `Root`, and in
the modes that are not modelled (flags between lexicons, alignment). -/
theorem C71_compile_partial (cfg : Config) (B : Backend) (hB : B.Ok) (first : Bool) (calls : List Call) (es : List Entry)
    (known : List Bytes) (hr : Reads cfg (fun g => (B.optimize g).alphabet) [] [] calls es known)
    (hc : Clean cfg calls es known) (hs : startLexicon calls ≠ lit "#") (hk : KeysApart es)
    (hb : first = true ∨ lit "Root" ∈ lexiconNames calls) :
    ∃ c, (Compiler.create first).run cfg B calls = .ok c ∧
      ((cfg.werror = true ∧ c.compile cfg B = .ok none) ∨
        ∃ g, c.compile cfg B = .ok (some g) ∧ ∀ l w, Cost g l w ↔ Chain es (startLexicon calls) l w) := by
  have := compile_of_inv hB (create_inv cfg first) hr hc hb (.inl rfl)
  simpa only [hs, chain_collected hk, false_and, or_false] using this

/-- **C71.**  The same for a compiler that has been used before and is reset, whatever it did before, if some entry ends a
word. -/
theorem C71_reset_partial (cfg : Config) (B : Backend) (hB : B.Ok) (c0 : Compiler) (calls : List Call) (es : List Entry)
    (known : List Bytes) (hr : Reads cfg (fun g => (B.optimize g).alphabet) [] [] calls es known)
    (hc : Clean cfg calls es known) (hs : startLexicon calls ≠ lit "#") (hk : KeysApart es)
    (hb : c0.first = true ∨ lit "Root" ∈ lexiconNames calls) (hh : ∃ e ∈ es, e.cont = lit "#") :
    ∃ c, c0.reset.run cfg B calls = .ok c ∧
      ((cfg.werror = true ∧ c.compile cfg B = .ok none) ∨
        ∃ g, c.compile cfg B = .ok (some g) ∧ ∀ l w, Cost g l w ↔ Chain es (startLexicon calls) l w) := by
  have := compile_of_inv hB (reset_inv cfg c0) hr hc hb (.inr hh)
  simpa only [hs, chain_collected hk, false_and, or_false] using this

end Hfst.Lexc
