import Verif.Props.PmatchDemo

/-!
# C63: where pattern matching puts the tags
-/

namespace Hfst.Pmatch
open Hfst.Basic Hfst.Ol

/-- The string of a tag around the text of its pattern; `seen` tells whether something printable was read. -/
def around (al : PmAlphabet) (mark seen : Bool) (t : Nat) (x : Bytes) : Bytes :=
  if mark = true ∧ seen = true then al.startTag t ++ x ++ al.endTag t else x

/-- The text a tape stands for.  `Writes al mark seen ps before after seen'`: the pairs `ps`, in a pattern whose text so far is `before`, lead to
the text `after` of that pattern.  A pair of an entry and an exit encloses the pairs of an inner pattern; an end tag puts its tag around all the
text of the pattern it stands in. -/
inductive Writes (al : PmAlphabet) (mark : Bool) : Bool → List (Nat × Nat) → Bytes → Bytes → Bool → Prop
  | done {seen : Bool} {x : Bytes} : Writes al mark seen [] x x seen
  | shown {seen seen' : Bool} {p : Nat × Nat} {ps : List (Nat × Nat)} {x y s : Bytes} :
      p.2 ≠ al.entry → p.2 ≠ al.exit → al.isEndTag p.2 = false → al.isPrintable p.2 = true → al.string p.2 = .ok s →
      Writes al mark (seen || al.isPrintable p.1) ps (x ++ s) y seen' → Writes al mark seen (p :: ps) x y seen'
  | hidden {seen seen' : Bool} {p : Nat × Nat} {ps : List (Nat × Nat)} {x y : Bytes} :
      p.2 ≠ al.entry → p.2 ≠ al.exit → al.isEndTag p.2 = false → al.isPrintable p.2 = false →
      Writes al mark (seen || al.isPrintable p.1) ps x y seen' → Writes al mark seen (p :: ps) x y seen'
  | tag {seen seen' : Bool} {p : Nat × Nat} {ps : List (Nat × Nat)} {x y : Bytes} :
      p.2 ≠ al.entry → p.2 ≠ al.exit → al.isEndTag p.2 = true →
      Writes al mark (seen || al.isPrintable p.1) ps (around al mark (seen || al.isPrintable p.1) p.2 x) y seen' →
      Writes al mark seen (p :: ps) x y seen'
  | inner {seen seen1 seen' : Bool} {p q : Nat × Nat} {ps qs : List (Nat × Nat)} {x y z : Bytes} :
      p.2 = al.entry → q.2 = al.exit →
      Writes al mark (seen || al.isPrintable p.1) ps [] z seen1 →
      Writes al mark (seen1 || al.isPrintable q.1) qs (x ++ z) y seen' →
      Writes al mark seen (p :: (ps ++ q :: qs)) x y seen'

theorem writes_loop {al : PmAlphabet} {X : Container} (hee : al.entry ≠ al.exit) (hx : X.extract = false) (hd : X.delete = false)
    {seen seen' : Bool} {ps : List (Nat × Nat)} {x y : Bytes} (h : Writes al X.mark seen ps x y seen') :
    ∀ (a : Bytes) (tags : List Nat) (rest : List (Nat × Nat)), tags.headD 0 = a.length →
      stringLoop al X (ps ++ rest) (a ++ x) tags seen = stringLoop al X rest (a ++ y) tags seen' := by
  induction h with
  | done => intro a tags rest _; rfl
  | shown h1 h2 h3 h4 h5 _ ih =>
    intro a tags rest ht
    rw [List.cons_append, stringLoop]
    dsimp only
    rw [if_neg h1, if_neg h2, if_neg (by simp [h3]), if_pos ⟨.inl hx, h4⟩, h5]
    show stringLoop al X _ (a ++ _ ++ _) tags _ = _
    rw [List.append_assoc]
    exact ih a tags rest ht
  | hidden h1 h2 h3 h4 _ ih =>
    intro a tags rest ht
    rw [List.cons_append, stringLoop]
    dsimp only
    rw [if_neg h1, if_neg h2, if_neg (by simp [h3]), if_neg (by simp [h4])]
    exact ih a tags rest ht
  | @tag seen seen' p ps x y h1 h2 h3 _ ih =>
    intro a tags rest ht
    rw [List.cons_append, stringLoop]
    dsimp only
    have hle : ¬ (a ++ x).length < tags.headD 0 := by
      rw [ht, List.length_append]; omega
    rw [if_neg h1, if_neg h2, if_pos h3, if_neg hle, if_neg (by simp [hd]), ← ih a tags rest ht, ht]
    unfold around
    split
    · rw [List.take_left, List.drop_left]
      simp only [List.append_assoc]
    · rfl
  | @inner seen seen1 seen' p q ps qs x y z h1 h2 _ _ ih1 ih2 =>
    intro a tags rest ht
    rw [List.cons_append, stringLoop]
    dsimp only
    rw [if_pos h1]
    have e1 := ih1 (a ++ x) ((a ++ x).length :: tags) (q :: (qs ++ rest)) rfl
    rw [List.append_nil] at e1
    have : ps ++ q :: qs ++ rest = ps ++ q :: (qs ++ rest) := by simp
    rw [this, e1, stringLoop]
    dsimp only
    rw [if_neg (by rw [h2]; exact fun h => hee h.symm), if_pos h2, List.append_assoc]
    exact ih2 a tags rest ht

/-- C63, tags: the string for a tape with nested patterns has the start tag of a pattern just before, and its end tag just after, the text that
this pattern wrote, whatever stands before, after or inside. -/
theorem C63_tags {al : PmAlphabet} {X : Container} (hee : al.entry ≠ al.exit) (hx : X.extract = false) (hd : X.delete = false)
    {seen : Bool} {ps : List (Nat × Nat)} {out : Bytes} (h : Writes al X.mark false ps [] out seen) :
    stringLoop al X ps [] [] false = .ok out := by
  have := writes_loop hee hx hd h [] [] [] rfl
  rw [List.append_nil] at this
  exact this

/-- The case of `b[a[b]]a`, where a pattern stands in another: the string is `b<W>a<W>b</W></W>a`. -/
example : stringLoop demoAlphabet demoContainer [(5, 5), (0, 1), (4, 4), (0, 1), (5, 5), (0, 3), (0, 2), (0, 3), (0, 2), (4, 4)] [] [] false =
    .ok (ascii "b<W>a<W>b</W></W>a") := by
  refine C63_tags (seen := true) (by decide +kernel) rfl rfl ?_
  refine .shown (s := [98]) (by decide) (by decide) rfl rfl rfl ?_
  refine .inner (ps := [(4, 4), (0, 1), (5, 5), (0, 3), (0, 2), (0, 3)]) (q := (0, 2)) (qs := [(4, 4)]) (z := ascii "<W>a<W>b</W></W>") (seen1 := true)
    rfl rfl ?_ (.shown (s := [97]) (by decide) (by decide) rfl rfl rfl ?_)
  · refine .shown (s := [97]) (by decide) (by decide) rfl rfl rfl ?_
    refine .inner (ps := [(5, 5), (0, 3)]) (q := (0, 2)) (qs := [(0, 3)]) (z := ascii "<W>b</W>") (seen1 := true) rfl rfl ?_ ?_
    · exact .shown (s := [98]) (by decide) (by decide) rfl rfl rfl (.tag (by decide) (by decide) rfl .done)
    · exact .tag (by decide) (by decide) rfl .done
  · exact .done

end Hfst.Pmatch
