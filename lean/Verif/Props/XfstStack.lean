import Verif.Spec.XfstStack
import Verif.Lemmas.Graph
import Mathlib.Data.List.Induction
import Mathlib.Tactic.Tauto

/-!
# C94: the stack and the definitions of hfst-xfst
-/
namespace Hfst.Xfst
open Hfst.StdString Hfst.Basic

variable {α : Type}

theorem toQueue_eq (l q : List (Net α)) : toQueue l q = q ++ l := by
  induction l generalizing q with
  | nil => simp [toQueue]
  | cons t l ih => simp [toQueue, ih]

theorem fromQueue_eq (q st : List (Net α)) : fromQueue q st = q.reverse ++ st := by
  induction q generalizing st with
  | nil => simp [fromQueue]
  | cons t l ih => simp [fromQueue, ih]

theorem toStack_eq (l tmp : List (Net α)) : toStack l tmp = l.reverse ++ tmp := by
  induction l generalizing tmp with
  | nil => simp [toStack]
  | cons t l ih => simp [toStack, ih]

theorem writeLoop_eq (l st : List (Net α)) : writeLoop l st = (l, l.reverse ++ st) := by
  induction l generalizing st with
  | nil => simp [writeLoop]
  | cons t l ih => simp [writeLoop, ih]

theorem loadStack_eq (f : List (Net α)) (s : Session α) : loadStack f s = { s with stack := f.reverse ++ s.stack } := by
  unfold loadStack
  induction f generalizing s with
  | nil => simp
  | cons t l ih => simp [List.foldl_cons, ih]

/-! ## turn and rotate -/

/-- **C94, turn**: the stack is upside down afterwards, and nothing else changes. -/
theorem C94_turn (s : Session α) : turn s = { s with stack := s.stack.reverse } := by
  simp [turn, toQueue_eq, fromQueue_eq]

/-- **C94, rotate (partial)**: with one or two networks on the stack, the stack is rotated; a single network stays, and two change
places.  Missing: more networks, see `C94_rotate_violated`. -/
theorem C94_rotate_partial (s : Session α) (h : s.stack.length ≤ 2) :
    Rotation s.stack (rotate s).stack ∧ (s.stack.length = 2 → (rotate s).stack = s.stack.tail ++ s.stack.take 1) := by
  unfold rotate
  rcases hs : s.stack with _ | ⟨a, _ | ⟨b, _ | ⟨c, l⟩⟩⟩
  · simp only [hs]; exact ⟨⟨[], [], rfl, rfl⟩, by simp⟩
  · exact ⟨⟨[a], [], rfl, rfl⟩, by simp⟩
  · exact ⟨⟨[a], [b], rfl, rfl⟩, by simp [toStack]⟩
  · rw [hs] at h; simp at h

/-- **C94, rotate (violated)**: whenever there are three different networks on the stack, `rotate stack` does not rotate it. -/
theorem C94_rotate_violated (a b c : Net α) (hab : a ≠ b) (hbc : b ≠ c) (hac : a ≠ c) (s : Session α) (h : s.stack = [a, b, c]) :
    ¬ Rotation s.stack (rotate s).stack := by
  have hr : (rotate s).stack = [c, b, a] := by simp [rotate, h, toStack]
  rw [hr, h]
  rintro ⟨x, y, h1, h2⟩
  rcases x with _ | ⟨x1, _ | ⟨x2, x⟩⟩
  · simp only [List.nil_append, List.append_nil] at h1 h2
    rw [← h1] at h2
    simp only [List.cons.injEq] at h2
    exact hac h2.1.symm
  · simp only [List.cons_append, List.nil_append, List.cons.injEq] at h1
    rw [← h1.2, ← h1.1] at h2
    simp only [List.cons_append, List.nil_append, List.cons.injEq] at h2
    exact hbc h2.1.symm
  · simp only [List.cons_append, List.cons.injEq] at h1
    rcases x with _ | ⟨x3, x⟩
    · simp only [List.nil_append] at h1
      rw [← h1.2.2, ← h1.1, ← h1.2.1] at h2
      simp only [List.cons_append, List.nil_append, List.cons.injEq] at h2
      exact hab h2.2.1.symm
    · simp only [List.cons_append, List.cons.injEq] at h1
      have hy : y = [] := by
        have := congrArg List.length h1.2.2.2
        simp only [List.length_nil, List.length_append] at this
        exact List.length_eq_zero_iff.1 (by omega)
      rw [hy, ← h1.1] at h2
      simp only [List.nil_append, List.cons.injEq] at h2
      exact hac h2.1.symm

/-! ## save stack and load stack -/

/-- **C94, saving the stack**: `save stack` leaves the session as it is, and `load stack` in any session puts the networks of the file
on top of the stack, in the order they had, with their names.  Nothing else changes. -/
theorem C94_save_load (s s' : Session α) (h : s.stack ≠ []) :
    ∃ file, writeStack s = (some file, s) ∧ loadStack file s' = { s' with stack := s.stack ++ s'.stack } := by
  refine ⟨s.stack.reverse, ?_, by simp [loadStack_eq]⟩
  unfold writeStack
  rcases hs : s.stack with _ | ⟨t, l⟩
  · exact absurd hs h
  · simp only [toStack_eq, writeLoop_eq, List.append_nil, List.reverse_reverse]
    rw [← hs]

/-! ## The definitions -/

theorem pushes_iff (s : Session α) (n : Str) (v : α) : Pushes s n v ↔ (mapGet s.defs n).map Net.value = some v := by
  unfold Pushes push
  cases h : mapGet s.defs n with
  | none =>
    constructor
    · rintro ⟨nm, h1⟩
      have := congrArg List.length h1
      simp at this
    · intro h1; simp at h1
  | some t =>
    cases t with
    | mk nm w =>
      constructor
      · rintro ⟨nm', h1⟩
        simp at h1
        simp [h1.2]
      · intro h1
        simp at h1
        exact ⟨nm, by simp [h1]⟩

theorem reads_iff (s : Session α) (n : Str) (v : α) : Reads s n v ↔ (mapGet s.regex n).map Net.value = some v := by
  unfold Reads readRegex known
  simp only
  generalize (mapGet s.regex n).map Net.value = o
  cases o with
  | none =>
    constructor
    · rintro ⟨nm, h1⟩
      have := congrArg List.length h1
      simp at this
    · intro h1; simp at h1
  | some w => simp

/-- The definitions are those of the regular expressions. -/
def Agree (s : Session α) : Prop := ∀ n, (mapGet s.defs n).map Net.value = (mapGet s.regex n).map Net.value

theorem agree_define (n : Str) (t : Net α) (s : Session α) (h : Agree s) : Agree (define n t s) := by
  intro m
  unfold define
  simp only [mapGet_put]
  by_cases hm : m = n
  · cases s.nameNets <;> simp [hm]
  · simpa [hm] using h m

theorem agree_undefine (ns : List Str) (s : Session α) (h : Agree s) : Agree (undefine ns s) := by
  unfold undefine
  induction ns generalizing s with
  | nil => exact h
  | cons n ns ih =>
    refine ih _ ?_
    unfold undefineOne
    cases hg : mapGet s.defs n with
    | none => exact h
    | some t =>
      intro m
      simp only [mapGet_erase]
      by_cases hm : m = n
      · simp [hm]
      · simpa [hm] using h m

theorem agree_step (s : Session α) (c : Command α) (hc : ∀ f, c ≠ .loadDefined f) (h : Agree s) : Agree (step s c) := by
  cases c with
  | clear => exact h
  | pop => simp only [step]; unfold pop; cases s.stack <;> exact h
  | turn => exact h
  | rotate => simp only [step]; unfold rotate; cases s.stack <;> exact h
  | push n => simp only [step]; unfold push; cases mapGet s.defs n <;> exact h
  | defineTop n =>
    simp only [step]
    unfold defineTop
    cases s.stack with
    | nil => exact h
    | cons t ts => exact agree_define _ _ _ h
  | defineRegex n c =>
    simp only [step]
    unfold defineRegex
    cases c (known s) with
    | none => exact h
    | some v => exact agree_define _ _ _ h
  | readRegex c =>
    simp only [step]
    unfold readRegex
    cases c (known s) <;> exact h
  | undefine ns => exact agree_undefine _ _ h
  | loadStack f => simp only [step, loadStack_eq]; exact h
  | loadDefined f => exact absurd rfl (hc f)
  | unary f =>
    simp only [step]
    unfold unary
    cases s.stack with
    | nil => exact h
    | cons t ts => simp only; cases f t.value <;> exact h
  | binary op =>
    simp only [step]
    unfold binary
    rcases s.stack with _ | ⟨t, _ | ⟨u, ts⟩⟩
    · exact h
    · exact h
    · simp only; cases op t.value u.value <;> exact h
  | iterate a b c =>
    simp only [step]
    unfold iterate
    rcases s.stack with _ | ⟨t, _ | ⟨u, ts⟩⟩ <;> exact h
  | nameNets on => exact h

theorem run_append (cs : List (Command α)) (c : Command α) : run (cs ++ [c]) = step (run cs) c := by
  simp [run]

/-- **C94, names (partial)**: after any commands but `load defined`, `push defined NAME` puts on the stack exactly what the regular
expression `NAME` stands for.  Missing: `load defined`, see `C94_names_violated`. -/
theorem C94_names_partial (cs : List (Command α)) (h : NoLoad cs) (n : Str) (v : α) :
    Pushes (run cs) n v ↔ Reads (run cs) n v := by
  rw [pushes_iff, reads_iff]
  have : Agree (run cs) := by
    induction cs using List.reverseRecOn with
    | nil => intro m; rfl
    | append_singleton cs c ih =>
      rw [run_append]
      refine agree_step _ _ ?_ (ih ?_)
      · intro f hf; exact h f (by simp [hf])
      · intro f hf; exact h f (by simp [hf])
  rw [this n]

/-- **C94, define**: the network leaves the stack, the name stands for it from now on in both ways, and the other names stand for what
they stood for. -/
theorem C94_define (s : Session α) (n : Str) (t : Net α) (ts : List (Net α)) (h : s.stack = t :: ts) :
    (defineTop n s).stack = ts ∧ (∀ v, Pushes (defineTop n s) n v ↔ v = t.value) ∧ (∀ v, Reads (defineTop n s) n v ↔ v = t.value) ∧
      (∀ m v, m ≠ n → ((Pushes (defineTop n s) m v ↔ Pushes s m v) ∧ (Reads (defineTop n s) m v ↔ Reads s m v))) := by
  have e : defineTop n s = define n t { s with stack := ts } := by unfold defineTop; rw [h]
  rw [e]
  refine ⟨rfl, fun v => ?_, fun v => ?_, fun m v hm => ⟨?_, ?_⟩⟩
  · rw [pushes_iff]
    unfold define
    simp only [mapGet_put]
    cases s.nameNets <;> simp [eq_comm]
  · rw [reads_iff]
    unfold define
    simp only [mapGet_put]
    simp [eq_comm]
  · rw [pushes_iff, pushes_iff]
    unfold define
    simp only [mapGet_put, if_neg hm]
  · rw [reads_iff, reads_iff]
    unfold define
    simp only [mapGet_put, if_neg hm]

theorem undefine_get (ns : List Str) (s : Session α) (m : Str) :
    mapGet (undefine ns s).defs m = if m ∈ ns then none else mapGet s.defs m := by
  unfold undefine
  induction ns generalizing s with
  | nil => simp
  | cons n ns ih =>
    rw [List.foldl_cons, ih]
    unfold undefineOne
    cases hg : mapGet s.defs n with
    | none =>
      simp only [List.mem_cons]
      by_cases hm : m = n
      · subst hm; simp [hg]
      · simp [hm]
    | some t =>
      simp only [mapGet_erase, List.mem_cons]
      by_cases hm : m = n
      · subst hm; simp
      · simp [hm]

theorem undefine_stack (ns : List Str) (s : Session α) : (undefine ns s).stack = s.stack := by
  unfold undefine
  induction ns generalizing s with
  | nil => rfl
  | cons n ns ih =>
    rw [List.foldl_cons, ih]
    unfold undefineOne
    cases mapGet s.defs n <;> rfl

/-- **C94, undefine**: the names of the command stand for nothing afterwards, the other names stand for what they stood for, and the
stack stays. -/
theorem C94_undefine (s : Session α) (ns : List Str) :
    (undefine ns s).stack = s.stack ∧ ∀ m v, Pushes (undefine ns s) m v ↔ m ∉ ns ∧ Pushes s m v := by
  refine ⟨undefine_stack ns s, fun m v => ?_⟩
  rw [pushes_iff, pushes_iff, undefine_get]
  by_cases h : m ∈ ns <;> simp [h]

/-! ## Definitions in files -/

theorem loadDefined_get (file : List (Net α)) (hn : (file.map Net.name).Nodup) (s : Session α) (n : Str) :
    mapGet (loadDefined file s).defs n =
      if n.isEmpty then mapGet s.defs n else ((file.find? fun t => t.name = n).or (mapGet s.defs n)) := by
  unfold loadDefined
  induction file generalizing s with
  | nil => cases n.isEmpty <;> simp
  | cons t file ih =>
    rw [List.map_cons, List.nodup_cons] at hn
    rw [List.foldl_cons, ih hn.2]
    have hget : mapGet (addLoaded s t).defs n =
        if n.isEmpty then mapGet s.defs n else if t.name = n then some t else mapGet s.defs n := by
      unfold addLoaded
      by_cases ht : t.name.isEmpty
      · rw [if_pos ht]
        by_cases he : n.isEmpty
        · rw [if_pos he]
        · rw [if_neg he, if_neg (fun h : t.name = n => he (h ▸ ht))]
      · rw [if_neg ht]
        simp only [mapGet_put]
        by_cases hm : n = t.name
        · subst hm; simp [ht]
        · rw [if_neg hm, if_neg (fun h : t.name = n => hm h.symm)]
          simp
    rw [hget, List.find?_cons]
    by_cases he : n.isEmpty
    · simp [he]
    · simp only [he, if_false, Bool.false_eq_true]
      by_cases hm : t.name = n
      · have : file.find? (fun t => decide (t.name = n)) = none := by
          rw [List.find?_eq_none]
          intro u hu
          simp only [decide_eq_true_eq]
          intro h
          exact hn.1 (List.mem_map.2 ⟨u, hu, by rw [h, hm]⟩)
        simp [hm, this]
      · simp [hm]

/-- Every name is there once. -/
def KeysNodup (s : Session α) : Prop := (s.defs.map Prod.fst).Nodup

theorem nodup_put (m : List (Str × Net α)) (h : (m.map Prod.fst).Nodup) (k : Str) (v : Net α) :
    ((mapPut m k v).map Prod.fst).Nodup := by
  unfold mapPut
  rw [List.map_cons, List.nodup_cons]
  refine ⟨?_, ?_⟩
  · simp
  · exact h.sublist (List.Sublist.map _ List.filter_sublist)

theorem nodup_erase (m : List (Str × Net α)) (h : (m.map Prod.fst).Nodup) (k : Str) :
    ((mapErase m k).map Prod.fst).Nodup := by
  unfold mapErase
  exact h.sublist (List.Sublist.map _ List.filter_sublist)

theorem nodup_undefine (ns : List Str) (s : Session α) (h : KeysNodup s) : KeysNodup (undefine ns s) := by
  unfold undefine
  induction ns generalizing s with
  | nil => exact h
  | cons n ns ih =>
    refine ih _ ?_
    unfold undefineOne
    cases mapGet s.defs n with
    | none => exact h
    | some t => exact nodup_erase _ h _

theorem nodup_load (f : List (Net α)) (s : Session α) (h : KeysNodup s) : KeysNodup (loadDefined f s) := by
  unfold loadDefined
  induction f generalizing s with
  | nil => exact h
  | cons n ns ih =>
    refine ih _ ?_
    unfold addLoaded
    split
    · exact h
    · exact nodup_put _ h _ _

theorem nodup_step (s : Session α) (c : Command α) (h : KeysNodup s) : KeysNodup (step s c) := by
  cases c with
  | clear => exact h
  | pop => simp only [step]; unfold pop; cases s.stack <;> exact h
  | turn => exact h
  | rotate => simp only [step]; unfold rotate; cases s.stack <;> exact h
  | push n => simp only [step]; unfold push; cases mapGet s.defs n <;> exact h
  | defineTop n =>
    simp only [step]
    unfold defineTop
    cases s.stack with
    | nil => exact h
    | cons t ts => exact nodup_put _ h _ _
  | defineRegex n c =>
    simp only [step]
    unfold defineRegex
    cases c (known s) with
    | none => exact h
    | some v => exact nodup_put _ h _ _
  | readRegex c =>
    simp only [step]
    unfold readRegex
    cases c (known s) <;> exact h
  | undefine ns => exact nodup_undefine _ _ h
  | loadStack f => simp only [step, loadStack_eq]; exact h
  | loadDefined f => exact nodup_load _ _ h
  | unary f =>
    simp only [step]
    unfold unary
    cases s.stack with
    | nil => exact h
    | cons t ts => simp only; cases f t.value <;> exact h
  | binary op =>
    simp only [step]
    unfold binary
    rcases s.stack with _ | ⟨t, _ | ⟨u, ts⟩⟩
    · exact h
    · exact h
    · simp only; cases op t.value u.value <;> exact h
  | iterate a b c =>
    simp only [step]
    unfold iterate
    rcases s.stack with _ | ⟨t, _ | ⟨u, ts⟩⟩ <;> exact h
  | nameNets on => exact h

theorem nodup_run (cs : List (Command α)) : KeysNodup (run cs) := by
  induction cs using List.reverseRecOn with
  | nil => exact List.nodup_nil
  | append_singleton cs c ih => rw [run_append]; exact nodup_step _ _ ih

theorem find_written (l : List (Str × Net α)) (n : Str) :
    ((l.map fun d => { d.2 with name := d.1 }).find? fun t : Net α => t.name = n).map Net.value =
      (mapGet l n).map Net.value := by
  unfold mapGet
  induction l with
  | nil => rfl
  | cons d l ih =>
    rw [List.map_cons, List.find?_cons, List.find?_cons]
    by_cases hd : d.1 = n
    · simp [hd]
    · simpa [hd] using ih

/-- **C94, saving the definitions**: after any commands, the file of `save defined` gives every name back in any session that loads it:
a name of the file stands for the network it stood for when the file was written, and the other names of that session for what they
stood for.  The stack stays.  (A name is not empty: the parser takes no empty name.) -/
theorem C94_definitions (cs : List (Command α)) (file : List (Net α)) (h : writeDefinitions (run cs) = some file)
    (s : Session α) (n : Str) (hn : n ≠ []) (v : α) :
    (loadDefined file s).stack = s.stack ∧
    (Pushes (loadDefined file s) n v ↔ Pushes (run cs) n v ∨ ((∀ w, ¬ Pushes (run cs) n w) ∧ Pushes s n v)) := by
  have hf : file = (run cs).defs.map fun d => { d.2 with name := d.1 } := by
    unfold writeDefinitions at h
    split at h
    · cases h
    · exact (Option.some.inj h).symm
  constructor
  · unfold loadDefined
    clear h hf
    induction file generalizing s with
    | nil => rfl
    | cons t file ih =>
      rw [List.foldl_cons, ih]
      unfold addLoaded
      split <;> rfl
  · have hnod : (file.map Net.name).Nodup := by
      rw [hf, List.map_map]
      exact nodup_run cs
    simp only [pushes_iff]
    rw [loadDefined_get _ hnod]
    have he : n.isEmpty = false := by cases n with
      | nil => exact absurd rfl hn
      | cons => rfl
    rw [he, if_neg (by simp)]
    have hw := find_written (run cs).defs n
    rw [← hf] at hw
    rw [← hw]
    cases file.find? (fun t : Net α => decide (t.name = n)) with
    | none => simp
    | some t => simp

/-! ## Operations -/

/-- **C94, operations on one or two networks**: an operation that is available replaces the networks it takes by its result; one that
is not, or that lacks networks, leaves the session as it is. -/
theorem C94_operations (s : Session α) (f : α → Option α) (op : α → α → Option α) :
    (∀ t ts v, s.stack = t :: ts → f t.value = some v → values (unary f s) = v :: ts.map Net.value) ∧
    (∀ t ts, s.stack = t :: ts → f t.value = none → unary f s = s) ∧
    (s.stack = [] → unary f s = s) ∧
    (∀ t u ts v, s.stack = t :: u :: ts → op t.value u.value = some v → values (binary op s) = v :: ts.map Net.value) ∧
    (∀ t u ts, s.stack = t :: u :: ts → op t.value u.value = none → binary op s = s) ∧
    (s.stack.length < 2 → binary op s = s) := by
  refine ⟨?_, ?_, ?_, ?_, ?_, ?_⟩
  · intro t ts v h1 h2; simp [unary, values, h1, h2]
  · intro t ts h1 h2; unfold unary; rw [h1]; simp only [h2]; rw [← h1]
  · intro h1; simp [unary, h1]
  · intro t u ts v h1 h2; simp [binary, values, h1, h2]
  · intro t u ts h1 h2; unfold binary; rw [h1]; simp only [h2]; rw [← h1]
  · intro h1
    unfold binary
    rcases hst : s.stack with _ | ⟨t, _ | ⟨u, ts⟩⟩
    · rfl
    · rfl
    · rw [hst] at h1; simp at h1; omega

theorem iterLoop_eq (same : α → α → Bool) (op : α → α → Option α) (g : α → α → α) (optimize : α → α)
    (hs : ∀ a b, same a b = true) (ho : ∀ a b, op a b = some (g a b)) (ts : List (Net α)) (r : Net α) :
    (iterLoop same op optimize r ts).map Net.value = [optimize ((ts.map Net.value).foldl g r.value)] := by
  induction ts generalizing r with
  | nil => simp [iterLoop]
  | cons t ts ih => simp [iterLoop, hs, ho, ih]

/-- **C94, operations on the stack (partial)**: with networks of one type and an operation that does not fail, the whole stack is
replaced by one network, the result of the operation from the top down.  With two networks this is the operation on the top two.
Missing: that only the top two of more networks are used by `union net` and `shuffle net` (`C94_union_violated`), and compositions that
fail (`C94_lost_violated`). -/
theorem C94_iterate_partial (same : α → α → Bool) (op : α → α → Option α) (g : α → α → α) (optimize : α → α)
    (hs : ∀ a b, same a b = true) (ho : ∀ a b, op a b = some (g a b)) (s : Session α) :
    (∀ a b vs, values s = a :: b :: vs → values (iterate same op optimize s) = [optimize (vs.foldl g (g a b))]) ∧
    ((values s).length < 2 → iterate same op optimize s = s) := by
  constructor
  · intro a b vs h
    unfold values at h ⊢
    unfold iterate
    rcases hst : s.stack with _ | ⟨t, _ | ⟨u, ts⟩⟩
    · rw [hst] at h; cases h
    · rw [hst] at h; cases h
    · rw [hst] at h
      simp only [List.map_cons, List.cons.injEq] at h
      obtain ⟨h1, h2, h3⟩ := h
      simp only
      rw [iterLoop_eq same op g optimize hs ho]
      simp [h1, h2, h3]
  · intro h
    unfold values at h
    unfold iterate
    rcases hst : s.stack with _ | ⟨t, _ | ⟨u, ts⟩⟩
    · rfl
    · rfl
    · rw [hst] at h; simp at h; omega

/-- **C94, composition that fails (violated)**: when the composition of the top two networks fails, the top network is lost, although
nothing has been computed. -/
theorem C94_lost_violated (same : α → α → Bool) (op : α → α → Option α) (optimize : α → α) (s : Session α) (t u : Net α)
    (ts : List (Net α)) (h : s.stack = t :: u :: ts) (hs : same u.value t.value = true) (ho : op t.value u.value = none) :
    (iterate same op optimize s).stack = u :: ts ∧ iterate same op optimize s ≠ s := by
  have : (iterate same op optimize s).stack = u :: ts := by
    unfold iterate
    rw [h]
    simp [iterLoop, hs, ho]
  refine ⟨this, fun he => ?_⟩
  rw [he, h] at this
  have := congrArg List.length this
  simp at this

/-! ## Tests -/

section Tests
variable {W : Type} (L : α → W → Prop) (inter : α → α → α) (empty : α → Bool) (equal : α → α → Bool)

theorem overlapLoop_sound (hi : ∀ a b w, L (inter a b) w ↔ L a w ∧ L b w) (he : ∀ a, empty a = true ↔ ∀ w, ¬ L a w) (t : α)
    (ts : List (Net α)) (hne : ts ≠ []) :
    overlapLoop inter empty t ts = true ↔ ∃ w, L t w ∧ ∀ u ∈ ts, L u.value w := by
  induction ts generalizing t with
  | nil => exact absurd rfl hne
  | cons u ts ih =>
    unfold overlapLoop
    by_cases h : empty (inter t u.value)
    · rw [if_pos h]
      rw [he] at h
      constructor
      · intro h1; cases h1
      · rintro ⟨w, h1, h2⟩
        exact absurd ((hi _ _ _).2 ⟨h1, h2 u List.mem_cons_self⟩) (h w)
    · rw [if_neg h]
      cases ts with
      | nil =>
        simp only [overlapLoop, true_iff]
        rw [he] at h
        have : ∃ w, L (inter t u.value) w := Classical.byContradiction fun hc => h fun w hw => hc ⟨w, hw⟩
        obtain ⟨w, hw⟩ := this
        exact ⟨w, ((hi _ _ _).1 hw).1, by simpa using ((hi _ _ _).1 hw).2⟩
      | cons x ts =>
        rw [ih _ (by simp)]
        constructor
        · rintro ⟨w, h1, h2⟩
          rw [hi] at h1
          exact ⟨w, h1.1, fun y hy => by
            rcases List.mem_cons.1 hy with rfl | hy
            · exact h1.2
            · exact h2 y hy⟩
        · rintro ⟨w, h1, h2⟩
          exact ⟨w, (hi _ _ _).2 ⟨h1, h2 u List.mem_cons_self⟩, fun y hy => h2 y (List.mem_cons_of_mem _ hy)⟩

theorem sublanguageLoop_iff (hi : ∀ a b w, L (inter a b) w ↔ L a w ∧ L b w) (he : ∀ a b, equal a b = true ↔ ∀ w, L a w ↔ L b w)
    (t : α) (ts : List (Net α)) :
    sublanguageLoop inter equal t ts = true ↔ List.IsChain (fun a b => ∀ w, L a w → L b w) (t :: ts.map Net.value) := by
  induction ts generalizing t with
  | nil => simp [sublanguageLoop]
  | cons u ts ih =>
    unfold sublanguageLoop
    rw [List.map_cons, List.isChain_cons_cons, ← ih]
    have : (equal (inter t u.value) t = true) ↔ ∀ w, L t w → L u.value w := by
      rw [he]
      exact forall_congr' fun w => by rw [hi]; tauto
    rw [← this]
    cases equal (inter t u.value) t <;> simp

/-- **C94, tests (partial)**: with two networks on the stack, `test overlap` answers whether some string is in both, and
`test sublanguage` whether each string of the top one is in the next one.  With more networks the answer yes is right for the top two.
Missing: the answer no, see `C94_tests_violated`.  (The intersection and the comparison of networks are assumed to be right.) -/
theorem C94_tests_partial (hi : ∀ a b w, L (inter a b) w ↔ L a w ∧ L b w) (he : ∀ a, empty a = true ↔ ∀ w, ¬ L a w)
    (hq : ∀ a b, equal a b = true ↔ ∀ w, L a w ↔ L b w) (s : Session α) (a b : α) (vs : List α) (h : values s = a :: b :: vs) :
    (testOverlap inter empty s = some true → ∃ w, L a w ∧ L b w) ∧
    (vs = [] → (∃ w, L a w ∧ L b w) → testOverlap inter empty s = some true) ∧
    (testSublanguage inter equal s = some true → ∀ w, L a w → L b w) ∧
    (vs = [] → (∀ w, L a w → L b w) → testSublanguage inter equal s = some true) := by
  unfold values at h
  unfold testOverlap testSublanguage
  rcases hst : s.stack with _ | ⟨t, _ | ⟨u, ts⟩⟩
  · rw [hst] at h; cases h
  · rw [hst] at h; cases h
  · rw [hst] at h
    simp only [List.map_cons, List.cons.injEq] at h
    obtain ⟨rfl, rfl, rfl⟩ := h
    simp only [Option.some.injEq]
    rw [overlapLoop_sound L inter empty hi he _ _ (by simp), sublanguageLoop_iff L inter equal hi hq]
    refine ⟨?_, ?_, ?_, ?_⟩
    · rintro ⟨w, h1, h2⟩; exact ⟨w, h1, h2 u List.mem_cons_self⟩
    · rintro hv ⟨w, h1, h2⟩
      have : ts = [] := by simpa using hv
      subst this
      exact ⟨w, h1, by simpa using h2⟩
    · intro hc
      rw [List.map_cons, List.isChain_cons_cons] at hc
      exact hc.1
    · intro hv hc
      have : ts = [] := by simpa using hv
      subst this
      simpa using hc

end Tests

end Hfst.Xfst
