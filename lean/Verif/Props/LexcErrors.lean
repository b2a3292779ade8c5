import Verif.Props.LexcDemo

/-!
# C71: an error in a lexicon file is never lost

Theorems about `Verif.Model.Lexc` for every back-end, every setting and every file.
-/
namespace Hfst.Lexc
open Hfst.Basic
open Hfst.Tok (Bytes)

/-- `c'` records an error if `c` does. -/
def Keeps (c c' : Compiler) : Prop := c.errors = true → c'.errors = true

theorem Keeps.trans {a b c : Compiler} (h : Keeps a b) (h' : Keeps b c) : Keeps a c := fun e => h' (h e)

theorem keeps_fold {α : Type} (f : Compiler → α → Compiler) (hf : ∀ c x, Keeps c (f c x)) (l : List α) (c : Compiler) :
    Keeps c (l.foldl f c) := by
  induction l generalizing c with
  | nil => exact id
  | cons x l ih => exact (hf c x).trans (ih _)

theorem keeps_learn (cfg : Config) (c : Compiler) (x : Bytes) : Keeps c (c.learn cfg x).1 := by
  intro e
  unfold Compiler.learn
  split
  · exact e
  · split
    · exact e
    · simp [Compiler.addAlphabet, e]

theorem keeps_unicodeCheck (cfg : Config) (c : Compiler) (d : Bytes) : Keeps c (c.unicodeCheck cfg d) := by
  unfold Compiler.unicodeCheck
  split
  · exact id
  · refine keeps_fold _ ?_ _ _
    intro c x e
    split
    · exact e
    · simp [Compiler.addAlphabet, e]

theorem keeps_addPath {c c' : Compiler} {v : List (Bytes × Bytes)} {w : Int} (h : c.addPath v w = .ok c') : Keeps c c' := by
  intro e
  unfold Compiler.addPath at h
  cases hd : c.trie.disjunct (v.map fun p => (sym p.1, sym p.2)) w with
  | ok t => rw [hd] at h; cases h; exact e
  | throws => rw [hd] at h; cases h
  | undefined => rw [hd] at h; cases h

theorem keeps_bind {α : Type} {o : Outcome α} {f : α → Outcome Compiler} {c c' : Compiler} (h : o.bind f = .ok c')
    (hf : ∀ a, f a = .ok c' → Keeps c c') : Keeps c c' := by
  cases o with
  | ok a => exact hf a h
  | throws => cases h
  | undefined => cases h

theorem keeps_call (cfg : Config) (B : Backend) {c c' : Compiler} {x : Call} (h : c.call cfg B x = .ok c') : Keeps c c' := by
  cases x with
  | noFlag n => cases h; exact id
  | multichar m => cases h; exact id
  | lexicon n =>
    cases h
    intro e
    unfold Compiler.setCurrent
    have key : ∀ (d : Compiler), d.errors = true → (if d.first ∧ n = lit "Root" then d.setInitial n
        else if d.first ∧ n ≠ lit "Root" then { d with errors := d.errors || cfg.werror }.setInitial n
        else if !d.first ∧ n = lit "Root" then { d with errors := d.errors || cfg.werror }.setInitial n
        else d).errors = true := by
      intro d hd
      split
      · exact hd
      · split
        · simp [Compiler.setInitial, hd]
        · split
          · simp [Compiler.setInitial, hd]
          · exact hd
    refine key _ ?_
    split <;> simp [Compiler.register, e]
  | string d k w =>
    change c.addStringEntry cfg d k w = .ok c' at h
    unfold Compiler.addStringEntry at h
    refine (keeps_unicodeCheck cfg c d).trans ?_
    generalize c.unicodeCheck cfg d = c1 at h ⊢
    have h1 : Keeps c1 (c1.prepare k) := fun e => e
    refine h1.trans ?_
    generalize c1.prepare k = c2 at h ⊢
    dsimp only at h
    exact keeps_bind h fun toks h => (keeps_fold (Compiler.learnOne cfg) (fun c x => keeps_learn cfg c x.1) _ _).trans (keeps_addPath h)
  | pair u l k w =>
    change c.addStringPairEntry cfg _ _ k w = .ok c' at h
    generalize (if u = lit "0" then [] else u) = u at h
    generalize (if l = lit "0" then [] else l) = l at h
    unfold Compiler.addStringPairEntry at h
    refine ((keeps_unicodeCheck cfg c u).trans (keeps_unicodeCheck cfg _ l)).trans ?_
    generalize (c.unicodeCheck cfg u).unicodeCheck cfg l = c1 at h ⊢
    have h1 : Keeps c1 (c1.prepare k) := fun e => e
    refine h1.trans ?_
    generalize c1.prepare k = c2 at h ⊢
    dsimp only at h
    refine keeps_bind h fun us h => keeps_bind h fun ls h => keeps_bind h fun us' h => keeps_bind h fun ls' h =>
        (keeps_fold (Compiler.learnPair cfg) ?_ _ _).trans (keeps_addPath h)
    intro c x
    unfold Compiler.learnPair
    dsimp only
    split
    · exact keeps_learn cfg c x.1
    · exact (keeps_learn cfg c x.1).trans (keeps_learn cfg _ x.2)
  | regexp r k w =>
    change c.addXreEntry cfg B r k w = .ok c' at h
    unfold Compiler.addXreEntry at h
    have h0 : Keeps c ({ c with conts := setInsert c.conts k }.register (joiner k)) := fun e => e
    refine h0.trans ?_
    generalize { c with conts := setInsert c.conts k }.register (joiner k) = c1 at h ⊢
    dsimp only at h
    split at h
    · cases h; exact fun _ => rfl
    · rename_i g hg
      have h2 : Keeps c1 ((B.optimize g).alphabet.foldl (Compiler.learnRegexp cfg) c1) := keeps_fold _ ?_ _ _
      · refine h2.trans ?_
        generalize (B.optimize g).alphabet.foldl (Compiler.learnRegexp cfg) c1 = c2 at h ⊢
        exact keeps_bind h fun toks h => fun e => keeps_addPath h e
      intro c x e
      unfold Compiler.learnRegexp
      split
      · exact e
      · split
        · exact e
        · simp [Compiler.addAlphabet, e]

theorem keeps_run (cfg : Config) (B : Backend) (calls : List Call) {c c' : Compiler} (h : c.run cfg B calls = .ok c') :
    Keeps c c' := by
  induction calls generalizing c with
  | nil => cases h; exact id
  | cons x xs ih =>
    change (c.call cfg B x).bind (fun c' => c'.run cfg B xs) = .ok c' at h
    cases hx : c.call cfg B x with
    | ok c1 => rw [hx] at h; exact (keeps_call cfg B hx).trans (ih h)
    | throws => rw [hx] at h; cases h
    | undefined => rw [hx] at h; cases h

/-- C71: a regular expression that cannot be compiled, anywhere in the file, keeps the file from being compiled, whatever comes
after it and whatever the settings are. -/
theorem C71_errors (cfg : Config) (B : Backend) (c0 c : Compiler) (calls : List Call) (h : c0.run cfg B calls = .ok c)
    (r k : Bytes) (w : Int) (hm : Call.regexp r k w ∈ calls) (hr : cfg.xre r = none) : c.compile cfg B = .ok none := by
  have he : c.errors = true := by
    induction calls generalizing c0 with
    | nil => cases hm
    | cons x xs ih =>
      change (c0.call cfg B x).bind (fun c' => c'.run cfg B xs) = .ok c at h
      cases hx : c0.call cfg B x with
      | throws => rw [hx] at h; cases h
      | undefined => rw [hx] at h; cases h
      | ok c1 =>
        rw [hx] at h
        rcases List.mem_cons.mp hm with rfl | hm
        · refine keeps_run cfg B xs h ?_
          change c0.addXreEntry cfg B r k w = .ok c1 at hx
          unfold Compiler.addXreEntry at hx
          rw [hr] at hx
          cases hx
          rfl
        · exact ih c1 h hm
  unfold Compiler.compile
  rw [he]
  rfl

/-- A file with an unknown regular expression in the middle (no code of the repository). -/
def badCalls : List Call := [.lexicon (lit "Root"), .regexp (lit "q") (lit "#") 0, .lexicon (lit "N"), .noFlag (lit "N")]

/-- It is not compiled, although warnings are not errors here. -/
example : ∃ c, (Compiler.create true).run demoCfg reference badCalls = .ok c ∧ c.compile demoCfg reference = .ok none := by
  obtain ⟨c, h⟩ : ∃ c, (Compiler.create true).run demoCfg reference badCalls = .ok c := ⟨_, rfl⟩
  exact ⟨c, h, C71_errors demoCfg reference _ c badCalls h (lit "q") (lit "#") 0 (by simp [badCalls]) rfl⟩

end Hfst.Lexc
