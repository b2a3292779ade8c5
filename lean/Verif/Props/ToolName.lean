import Verif.Lemmas.Graph
import Verif.Model.ToolName
import Verif.Spec.ToolName

/-!
# C106: hfst-name names all transducers of an archive and changes nothing else
-/
namespace Hfst.ToolName
open Hfst.Basic

theorem nameKey_eq : nameKey = nameProperty := by decide +kernel

theorem loop_names {α : Type} (utf8 : Text → Bool) (s : Settings) (hp : s.print = false) (hu : utf8 (newName s) = true)
    (gs : List (α × Props)) (first : Bool) :
    loop utf8 s first gs = ⟨gs.map fun g => .wrote g.1 (mapPut g.2 nameKey (newName s)), .success⟩ := by
  induction gs generalizing first with
  | nil => rfl
  | cons g gs ih => simp [loop, hp, hu, ih, Tools.Run.after]

theorem loop_prints {α : Type} (utf8 : Text → Bool) (s : Settings) (hp : s.print = true) (gs : List (α × Props)) :
    loop utf8 s false gs = ⟨gs.flatMap fun g => [.line, .quoted (current g.2)], .success⟩ := by
  induction gs with
  | nil => rfl
  | cons g gs ih => simp [loop, hp, ih, Tools.Run.after, current, ← nameKey_eq]

theorem print_stays (os : List Opt) (s : Settings) (hs : s.print = true) :
    (os.foldl (fun s o => match o with
      | .name arg => { s with name := some arg }
      | .print => { s with print := true }
      | .truncate n => { s with truncate := n }) s).print = true := by
  induction os generalizing s with
  | nil => exact hs
  | cons o os ih =>
    rw [List.foldl_cons]
    cases o
    · exact ih _ hs
    · exact ih _ rfl
    · exact ih _ hs

theorem print_of_mem (os : List Opt) (h : Opt.print ∈ os) : (readOpts os).print = true := by
  obtain ⟨a, b, rfl⟩ := List.append_of_mem h
  unfold readOpts
  rw [List.foldl_append, List.foldl_cons]
  exact print_stays b _ rfl

/-- **C106, naming (partial)**: with -n NAME, each transducer is written in its place, with its content and its other properties, under
this name.  Missing: names that are cut, see `C106_truncate_partial`. -/
theorem C106_name_partial {α : Type} (utf8 : Text → Bool) (name : Text) (hu : utf8 name = true) (gs : List (α × Props)) :
    Names name gs (run utf8 [.name name] gs) := by
  refine ⟨fun p => mapPut p nameKey name, ?_, fun props k => ?_⟩
  · exact loop_names utf8 (readOpts [.name name]) rfl hu gs true
  · rw [← nameKey_eq, mapGet_put]

/-- **C106, cutting (partial)**: with -t LEN as well, before or after -n, the name is the first LEN bytes, or all of it if LEN is 0.
Missing: names whose first LEN bytes are not UTF-8, see `C106_truncate_violated`. -/
theorem C106_truncate_partial {α : Type} (utf8 : Text → Bool) (name : Text) (len : Nat) (os : List Opt)
    (hos : os = [.name name, .truncate len] ∨ os = [.truncate len, .name name])
    (hu : utf8 (if len = 0 then name else name.take len) = true) (gs : List (α × Props)) :
    Names (if len = 0 then name else name.take len) gs (run utf8 os gs) := by
  have hn : newName (readOpts os) = if len = 0 then name else name.take len := by
    rcases hos with rfl | rfl <;> rcases Nat.eq_zero_or_pos len with rfl | h
    · rfl
    · simp [newName, readOpts, h, Nat.ne_of_gt h]
    · rfl
    · simp [newName, readOpts, h, Nat.ne_of_gt h]
  have hr : run utf8 os gs = loop utf8 (readOpts os) true gs := by rcases hos with rfl | rfl <;> rfl
  have hp : (readOpts os).print = false := by rcases hos with rfl | rfl <;> rfl
  rw [← hn] at hu ⊢
  refine ⟨fun p => mapPut p nameKey (newName (readOpts os)), ?_, fun props k => ?_⟩
  · rw [hr, loop_names utf8 _ hp hu gs true]
  · rw [← nameKey_eq, mapGet_put]

/-- **C106, printing**: if -p is among the options, whatever the others are, no transducer is written, and the current names are put out
in their order with a line between any two of them. -/
theorem C106_print {α : Type} (utf8 : Text → Bool) (os : List Opt) (h : Opt.print ∈ os) (gs : List (α × Props)) :
    run utf8 os gs = ⟨(gs.map fun g => Out.quoted (current g.2)).intersperse .line, .success⟩ := by
  have hp := print_of_mem os h
  unfold run
  simp only [hp, Bool.true_eq_false, false_and, if_false]
  cases gs with
  | nil => rfl
  | cons g gs =>
    have hi : ∀ (x : Out α) (l : List (α × Props)), (x :: l.map fun g => Out.quoted (current g.2)).intersperse .line =
        x :: l.flatMap fun g => [.line, .quoted (current g.2)] := by
      intro x l
      induction l generalizing x with
      | nil => rfl
      | cons y l ih =>
        rw [List.map_cons, List.intersperse_cons_cons, ih]
        rfl
    rw [List.map_cons, hi]
    simp [loop, hp, loop_prints utf8 _ hp gs, Tools.Run.after, current, ← nameKey_eq]

/-- **C106, violated for names that are cut inside of a character**: whatever the name is, if its first LEN bytes are not UTF-8, the tool
crashes on every archive with a transducer and writes nothing. -/
theorem C106_truncate_violated {α : Type} (utf8 : Text → Bool) (name : Text) (len : Nat) (hl : 0 < len) (hu : utf8 (name.take len) = false)
    (g : α × Props) (gs : List (α × Props)) : run utf8 [.name name, .truncate len] (g :: gs) = ⟨[], .crash⟩ := by
  simp [run, readOpts, loop, newName, hl, hu]

/-! ## Cases that meet the hypotheses -/

/-- UTF-8 with characters of one and two bytes (an example for libhfst/src/HfstTokenizer.cc:505-508). -/
def short : Text → Bool
  | [] => true
  | [a] => a < 128
  | a :: b :: r => if a < 128 then short (b :: r) else a &&& 224 = 192 && b &&& 192 = 128 && short r

example : short [97, 195, 164] = true ∧ short ([97, 195, 164].take 2) = false ∧ short ([97, 195, 164].take 1) = true := by decide +kernel

example : run short [.name [97, 195, 164]] [(7, [(nameKey, [98]), ([99], [100])]), (8, [])] =
    ⟨[.wrote 7 [(nameKey, [97, 195, 164]), ([99], [100])], .wrote 8 [(nameKey, [97, 195, 164])]], .success⟩ := by decide +kernel

example : run short [.print, .name [97]] [(7, [(nameKey, [98])]), (8, [])] = ⟨[.quoted [98], .line, .quoted []], .success⟩ := by decide +kernel

end Hfst.ToolName
