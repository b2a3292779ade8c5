import Verif.Props.Flags

/-!
# C02, C03: the two flag diacritic engines
-/
namespace Hfst.Flags
open Hfst.StdString

/-! ## C02 -/

/-- Specification: what a feature is set to. `pos v`: the value `v`; `neg v`: anything but `v`. -/
inductive Setting | unset | pos (v : Int) | neg (v : Int)
  deriving DecidableEq

/-- Specification: which operations a setting lets through. A value of 0 stands for "no value given". -/
def permits (s : Setting) (o : FdOperation) : Prop :=
  match o.op with
  | .P | .N | .C => True
  | .R => if o.value = 0 then s ≠ .unset else s = .pos o.value
  | .D => if o.value = 0 then s = .unset else s ≠ .pos o.value
  | .U => s = .unset ∨ s = .pos o.value ∨ ∃ w, w ≠ o.value ∧ s = .neg w

instance (s : Setting) (o : FdOperation) : Decidable (permits s o) := by
  unfold permits
  cases o.op <;> try infer_instance
  show Decidable (s = .unset ∨ s = .pos o.value ∨ ∃ w, w ≠ o.value ∧ s = .neg w)
  have : Decidable (∃ w, w ≠ o.value ∧ s = .neg w) :=
    match s with
    | .unset => isFalse (by simp)
    | .pos _ => isFalse (by simp)
    | .neg w => if h : w = o.value then isFalse (by simp [h]) else isTrue ⟨w, h, rfl⟩
  infer_instance

/-- Specification: the setting of a feature after a history (newest operation first): the last setting
operation on this feature that was let through decides. -/
def settingAfter (f : Nat) : List FdOperation → Setting
  | [] => .unset
  | o :: older =>
    if o.feature = f then
      match o.op with
      | .P => .pos o.value
      | .N => .neg o.value
      | .C => .unset
      | .U => if permits (settingAfter f older) o then .pos o.value else settingAfter f older
      | .R | .D => settingAfter f older
    else settingAfter f older

/-- The operations a table can hold (see `tableOps_good`): the feature has a number below the number of
features, values are positive `short`s, and only D, R and C may lack a value. -/
def GoodOp (n : Nat) (o : FdOperation) : Prop :=
  o.feature < n ∧ 0 ≤ o.value ∧ o.value ≤ 32767 ∧ (o.value = 0 → o.op = .R ∨ o.op = .D ∨ o.op = .C)

/-- Run operations oldest first, going on after refused ones; `none` is undefined behaviour. -/
def runOps (st : FdState) : List FdOperation → Option FdState
  | [] => some st
  | o :: os => match st.apply o with
    | none => none
    | some (_, st') => runOps st' os

/-- The number by which the engine represents a setting. -/
def Setting.code : Setting → Int
  | .unset => 0
  | .pos v => v
  | .neg v => -v

theorem toShort_id {n : Int} (h1 : -32768 ≤ n) (h2 : n ≤ 32767) : toShort n = n := by
  unfold toShort; omega

/-- Settings whose values are positive. -/
def Setting.Good : Setting → Prop
  | .unset => True
  | .pos v => 0 < v ∧ v ≤ 32767
  | .neg v => 0 < v ∧ v ≤ 32767

theorem settingAfter_good {n : Nat} (f : Nat) (h : List FdOperation) (hg : ∀ o ∈ h, GoodOp n o) :
    (settingAfter f h).Good := by
  induction h with
  | nil => simp [settingAfter, Setting.Good]
  | cons o older ih =>
    have ih := ih (fun o ho => hg o (by simp [ho]))
    have ho : GoodOp n o := hg o (by simp)
    obtain ⟨h1, h2, h3, h4⟩ := ho
    simp only [settingAfter]
    split
    · have hv : o.op = .P ∨ o.op = .N ∨ o.op = .U → 0 < o.value := by
        intro hop
        rcases Int.lt_or_eq_of_le h2 with h | h
        · exact h
        · have := h4 h.symm
          rcases hop with h | h | h <;> simp [h] at this
      split
      · simp [Setting.Good]; exact ⟨hv (by simp [*]), h3⟩
      · simp [Setting.Good]; exact ⟨hv (by simp [*]), h3⟩
      · simp [Setting.Good]
      · split
        · simp [Setting.Good]; exact ⟨hv (by simp [*]), h3⟩
        · exact ih
      · exact ih
      · exact ih
    · exact ih

theorem code_eq_zero {s : Setting} (hs : s.Good) : s.code = 0 ↔ s = .unset := by
  cases s <;> simp [Setting.code, Setting.Good] at * <;> omega

theorem code_eq_pos {s : Setting} (hs : s.Good) {v : Int} (hv : 0 < v) : s.code = v ↔ s = .pos v := by
  cases s <;> simp [Setting.code, Setting.Good] at * <;> omega

/-- One step: if the numbers represent the settings after `h`, the answer is the one the setting of the
feature dictates and the new numbers represent the settings after `o :: h`. -/
theorem apply_step {n : Nat} (h : List FdOperation) (o : FdOperation) (st : FdState)
    (hg : ∀ o' ∈ o :: h, GoodOp n o') (hl : st.values.length = n)
    (hst : ∀ f, f < n → st.values[f]? = some (settingAfter f h).code) :
    ∃ st', st.apply o = some (decide (permits (settingAfter o.feature h) o), st') ∧
      st'.values.length = n ∧ (∀ f, f < n → st'.values[f]? = some (settingAfter f (o :: h)).code) := by
  have ho : GoodOp n o := hg o (by simp)
  have hsg := settingAfter_good (n := n) o.feature h (fun o' ho' => hg o' (by simp [ho']))
  obtain ⟨h1, h2, h3, h4⟩ := ho
  have hcur := hst o.feature h1
  have hv : o.op = .P ∨ o.op = .N ∨ o.op = .U → 0 < o.value := by
    intro hop
    rcases Int.lt_or_eq_of_le h2 with h | h
    · exact h
    · have := h4 h.symm
      rcases hop with h | h | h <;> simp [h] at this
  have hset : ∀ (s : Setting), (∀ f, settingAfter f (o :: h) =
      if o.feature = f then s else settingAfter f h) →
      ∀ f, f < n → (st.values.set o.feature s.code)[f]? = some (settingAfter f (o :: h)).code := by
    intro s hs f hf
    rw [List.getElem?_set, hs f]
    by_cases e : o.feature = f
    · simp [e, hl, hf]
    · simp [e]; exact hst f hf
  have hsame : (∀ f, settingAfter f (o :: h) = settingAfter f h) →
      ∀ f, f < n → st.values[f]? = some (settingAfter f (o :: h)).code := by
    intro hs f hf
    rw [hs f]; exact hst f hf
  simp only [FdState.apply, hcur]
  rcases ho : o.op with _ | _ | _ | _ | _ | _
  · refine ⟨_, by simp [permits, ho]; rfl, by simpa using hl, ?_⟩
    have := hset (.pos o.value) (by intro f; simp [settingAfter, ho])
    simpa [Setting.code] using this
  · have hsh : toShort (-1 * o.value) = -o.value := by rw [toShort_id] <;> omega
    refine ⟨_, by simp [permits, ho]; rfl, by simpa using hl, ?_⟩
    have := hset (.neg o.value) (by intro f; simp [settingAfter, ho])
    simp only [Int.neg_mul, Int.one_mul] at hsh
    simpa [Setting.code, hsh] using this
  · refine ⟨st, ?_, hl, hsame (by intro f; simp [settingAfter, ho])⟩
    simp only [permits, ho]
    by_cases hz : o.value = 0
    · simp only [hz, if_true, ne_eq, code_eq_zero hsg]
    · have hp : 0 < o.value := by omega
      simp only [hz, if_false, ne_eq, code_eq_pos hsg hp]
  · refine ⟨st, ?_, hl, hsame (by intro f; simp [settingAfter, ho])⟩
    simp only [permits, ho]
    by_cases hz : o.value = 0
    · simp only [hz, if_true, ne_eq, code_eq_zero hsg]
    · have hp : 0 < o.value := by omega
      simp only [hz, if_false, ne_eq, code_eq_pos hsg hp]
  · refine ⟨_, by simp [permits, ho]; rfl, by simpa using hl, ?_⟩
    have := hset .unset (by intro f; simp [settingAfter, ho])
    simpa [Setting.code] using this
  · have hv' := hv (by simp [ho])
    have key : ((settingAfter o.feature h).code = 0 ∨ (settingAfter o.feature h).code = o.value ∨
        ((settingAfter o.feature h).code < 0 ∧ (settingAfter o.feature h).code * (-1) ≠ o.value)) ↔
        permits (settingAfter o.feature h) o := by
      simp only [permits, ho]
      cases hs : settingAfter o.feature h <;> rw [hs] at hsg <;> simp [Setting.Good] at hsg <;>
        simp [Setting.code] <;> omega
    by_cases hp : permits (settingAfter o.feature h) o
    · refine ⟨_, by simp only [key, hp]; simp; rfl, by simpa using hl, ?_⟩
      have := hset (.pos o.value) (by
        intro f
        simp only [settingAfter, ho]
        by_cases e : o.feature = f
        · subst e; simp [hp]
        · simp [e])
      simpa [Setting.code] using this
    · refine ⟨st, by simp only [key, hp]; simp, hl, ?_⟩
      apply hsame
      intro f
      simp only [settingAfter, ho]
      by_cases e : o.feature = f
      · subst e; simp [hp]
      · simp [e]

theorem runOps_append (st : FdState) (a b : List FdOperation) :
    runOps st (a ++ b) = (runOps st a).bind fun st' => runOps st' b := by
  induction a generalizing st with
  | nil => simp [runOps]
  | cons o os ih =>
    simp only [List.cons_append, runOps]
    cases st.apply o with
    | none => simp
    | some r => simp [ih]

theorem runOps_settings {n : Nat} (h : List FdOperation) (hg : ∀ o ∈ h, GoodOp n o) :
    ∃ st, runOps (FdState.init n) h.reverse = some st ∧ st.values.length = n ∧
      ∀ f, f < n → st.values[f]? = some (settingAfter f h).code := by
  induction h with
  | nil =>
    refine ⟨FdState.init n, rfl, by simp [FdState.init], ?_⟩
    intro f hf
    simp [FdState.init, settingAfter, Setting.code, hf]
  | cons o h ih =>
    obtain ⟨st, h1, h2, h3⟩ := ih (fun o ho => hg o (by simp [ho]))
    obtain ⟨st', h4, h5, h6⟩ := apply_step h o st hg h2 h3
    refine ⟨st', ?_, h5, h6⟩
    simp [runOps_append, h1, runOps, h4]

/-- C02: after any history of flag operations (`h`, newest first) the engine has not left its vector, and it
answers the next operation `o` exactly as the last successful setting of its feature dictates. -/
theorem C02_answer {n : Nat} (h : List FdOperation) (o : FdOperation) (hg : ∀ o' ∈ o :: h, GoodOp n o') :
    ∃ st st' b, runOps (FdState.init n) h.reverse = some st ∧ st.apply o = some (b, st') ∧
      (b = true ↔ permits (settingAfter o.feature h) o) := by
  obtain ⟨st, h1, h2, h3⟩ := runOps_settings h (fun o' ho' => hg o' (by simp [ho']))
  obtain ⟨st', h4, _, _⟩ := apply_step h o st hg h2 h3
  exact ⟨st, st', _, h1, h4, by simp⟩

/-- C02: the answer does not depend on the part of the history about other features. -/
theorem C02_independent {n : Nat} (h : List FdOperation) (o : FdOperation)
    (hg : ∀ o' ∈ o :: h, GoodOp n o') :
    ∃ st₁ st₂ st₁' st₂' b,
      runOps (FdState.init n) h.reverse = some st₁ ∧
      runOps (FdState.init n) (h.filter (fun p => p.feature = o.feature)).reverse = some st₂ ∧
      st₁.apply o = some (b, st₁') ∧ st₂.apply o = some (b, st₂') := by
  have hf : settingAfter o.feature (h.filter (fun p => p.feature = o.feature)) =
      settingAfter o.feature h := by
    clear hg
    induction h with
    | nil => rfl
    | cons p h ih =>
      by_cases e : p.feature = o.feature
      · simp [e, settingAfter, ih]
      · simp [e, settingAfter, ih]
  have hg2 : ∀ o' ∈ h.filter (fun p => p.feature = o.feature), GoodOp n o' := by
    intro o' ho'
    exact hg o' (by simp [List.mem_filter] at ho'; simp [ho'.1])
  obtain ⟨st₁, a1, a2, a3⟩ := runOps_settings h (fun o' ho' => hg o' (by simp [ho']))
  obtain ⟨st₂, b1, b2, b3⟩ := runOps_settings (n := n) _ hg2
  obtain ⟨st₁', a4, _, _⟩ := apply_step h o st₁ hg a2 a3
  obtain ⟨st₂', b4, _, _⟩ := apply_step _ o st₂ (by
    intro o' ho'
    rcases List.mem_cons.mp ho' with rfl | h'
    · exact hg _ (by simp)
    · exact hg2 _ h') b2 b3
  rw [hf] at b4
  exact ⟨st₁, st₂, st₁', st₂', _, a1, b1, a4, b4⟩

/-- C02: an operation changes no feature but its own, and nothing at all when it is refused. -/
theorem C02_frame (st st' : FdState) (o : FdOperation) (b : Bool) (h : st.apply o = some (b, st')) :
    (∀ f, f ≠ o.feature → st'.values[f]? = st.values[f]?) ∧ (b = false → st' = st) := by
  unfold FdState.apply at h
  split at h
  · simp at h
  · simp only [Option.some.injEq] at h
    have hset : ∀ v f, f ≠ o.feature → (st.values.set o.feature v)[f]? = st.values[f]? := by
      intro v f hf
      rw [List.getElem?_set]
      simp [Ne.symm hf]
    split at h <;> (try split at h) <;> simp only [Prod.mk.injEq] at h <;> obtain ⟨rfl, rfl⟩ := h <;>
      simp <;> (try exact hset _)

/-- C02: right after a successful P, N or C operation the feature is positively set, negatively set, unset,
whatever came before; D and R never change anything. -/
theorem C02_lastSet (f : Nat) (v : Int) (h : List FdOperation) :
    settingAfter f (⟨.P, f, v⟩ :: h) = .pos v ∧ settingAfter f (⟨.N, f, v⟩ :: h) = .neg v ∧
    settingAfter f (⟨.C, f, v⟩ :: h) = .unset ∧ settingAfter f (⟨.R, f, v⟩ :: h) = settingAfter f h ∧
    settingAfter f (⟨.D, f, v⟩ :: h) = settingAfter f h := by
  simp [settingAfter]

example : GoodOp 2 ⟨.P, 1, 2⟩ ∧ GoodOp 2 ⟨.R, 1, 0⟩ ∧ GoodOp 2 ⟨.N, 0, 3⟩ := by simp [GoodOp]
example : settingAfter 1 [⟨.U, 1, 5⟩, ⟨.P, 0, 3⟩, ⟨.N, 1, 4⟩] = .pos 5 := by decide

/-! ## C03 -/

/-- What the numbering of a table guarantees as long as there are at most 32767 values. -/
structure FdTable.Inv {T : Type} [BEq T] (t : FdTable T) (defs : List (T × Str)) : Prop where
  flt : ∀ f n, t.featureMap.lookup f = some n → n < t.featureMap.length
  finj : ∀ f g n, t.featureMap.lookup f = some n → t.featureMap.lookup g = some n → f = g
  vnil : t.valueMap.lookup [] = some 0
  vpos : ∀ v n, v ≠ [] → t.valueMap.lookup v = some n → 0 < n ∧ n ≤ t.valueMap.length
  vinj : ∀ v w n, t.valueMap.lookup v = some n → t.valueMap.lookup w = some n → v = w
  vlen : 0 < t.valueMap.length
  ops : ∀ x s, (x, s) ∈ defs → ∃ op f v fn vn, splitDiacritic s = some (op, f, v) ∧
    t.featureMap.lookup f = some fn ∧ t.valueMap.lookup (v.getD []) = some vn ∧
    t.operations.lookup x = some ⟨op, fn, vn⟩

theorem addFeature_spec {m m' : List (Str × Nat)} {f : Str} (h : addFeature m f = some m') :
    (∃ n, m'.lookup f = some n) ∧ (∀ g n, m.lookup g = some n → m'.lookup g = some n) ∧
    m.length ≤ m'.length ∧
    ((∀ f n, m.lookup f = some n → n < m.length) → (∀ f n, m'.lookup f = some n → n < m'.length)) ∧
    ((∀ f n, m.lookup f = some n → n < m.length) →
     (∀ f g n, m.lookup f = some n → m.lookup g = some n → f = g) →
     (∀ f g n, m'.lookup f = some n → m'.lookup g = some n → f = g)) := by
  unfold addFeature at h
  split at h
  · rename_i hs
    simp at h; subst h
    exact ⟨Option.isSome_iff_exists.mp hs, fun _ _ h => h, Nat.le_refl _, fun h => h, fun _ h => h⟩
  · rename_i hs
    simp only [sizeToUShort] at h
    split at h
    · simp at h; subst h
      have hnone : m.lookup f = none := Option.not_isSome_iff_eq_none.mp hs
      have look : ∀ g, List.lookup g ((f, m.length) :: m) = if g = f then some m.length else m.lookup g := by
        intro g
        simp only [List.lookup_cons]
        by_cases e : g = f
        · simp [e]
        · have : (g == f) = false := by simpa using e
          simp [this, e]
      refine ⟨⟨m.length, by simp [look]⟩, ?_, by simp, ?_, ?_⟩
      · intro g n hg
        rw [look]
        split
        · rename_i e; subst e; simp [hnone] at hg
        · exact hg
      · intro hlt g n hg
        rw [look] at hg
        split at hg
        · simp at hg; simp; omega
        · have := hlt _ _ hg; simp; omega
      · intro hlt hinj g g' n h1 h2
        rw [look] at h1 h2
        split at h1 <;> split at h2
        · simp [*]
        · simp at h1; have := hlt _ _ h2; omega
        · simp at h2; have := hlt _ _ h1; omega
        · exact hinj _ _ _ h1 h2
    · simp at h

theorem addValue_spec {m m' : List (Str × Int)} {v : Str} (h : addValue m v = some m')
    (hlen : m'.length ≤ 32767)
    (vnil : m.lookup [] = some 0)
    (vpos : ∀ v n, v ≠ [] → m.lookup v = some n → 0 < n ∧ n ≤ m.length)
    (vinj : ∀ v w n, m.lookup v = some n → m.lookup w = some n → v = w)
    (vlen : 0 < m.length) :
    (∃ n, m'.lookup v = some n) ∧ (∀ g n, m.lookup g = some n → m'.lookup g = some n) ∧
    m.length ≤ m'.length ∧
    (∀ v n, v ≠ [] → m'.lookup v = some n → 0 < n ∧ n ≤ m'.length) ∧
    (∀ v w n, m'.lookup v = some n → m'.lookup w = some n → v = w) := by
  unfold addValue at h
  split at h
  · rename_i hs
    simp at h; subst h
    exact ⟨Option.isSome_iff_exists.mp hs, fun _ _ h => h, Nat.le_refl _, vpos, vinj⟩
  · rename_i hs
    simp only [sizeToUShort] at h
    split at h
    · simp at h; subst h
      have hnone : m.lookup v = none := Option.not_isSome_iff_eq_none.mp hs
      have hid : toShort ((m.length : Int) + 1) = (m.length : Int) + 1 := by
        simp at hlen
        rw [toShort_id] <;> omega
      rw [hid]
      have look : ∀ g, List.lookup g ((v, (m.length : Int) + 1) :: m) =
          if g = v then some ((m.length : Int) + 1) else m.lookup g := by
        intro g
        simp only [List.lookup_cons]
        by_cases e : g = v
        · simp [e]
        · have : (g == v) = false := by simpa using e
          simp [this, e]
      have bound : ∀ g n, m.lookup g = some n → n ≤ m.length := by
        intro g n hg
        by_cases e : g = []
        · subst e; rw [vnil] at hg; simp at hg; omega
        · exact (vpos _ _ e hg).2
      refine ⟨⟨_, by rw [look]; simp; rfl⟩, ?_, by simp, ?_, ?_⟩
      · intro g n hg
        rw [look]
        split
        · rename_i e; subst e; simp [hnone] at hg
        · exact hg
      · intro g n hne hg
        rw [look] at hg
        split at hg
        · simp at hg; subst hg; simp
        · have := vpos _ _ hne hg
          simp; omega
      · intro g g' n h1 h2
        rw [look] at h1 h2
        split at h1 <;> split at h2
        · simp [*]
        · simp at h1; have := bound _ _ h2; omega
        · simp at h2; have := bound _ _ h1; omega
        · exact vinj _ _ _ h1 h2
    · simp at h

theorem define_inv {T : Type} [DecidableEq T] {t t' : FdTable T} {defs : List (T × Str)} {x : T}
    {s : Str} (h : t.define x s = some t') (hinv : t.Inv defs) (hlen : t'.valueMap.length ≤ 32767)
    (hcons : ∀ s', (x, s') ∈ defs → s' = s) : t'.Inv ((x, s) :: defs) := by
  unfold FdTable.define at h
  split at h
  · split at h
    · simp at h
    · rename_i op f v? hsplit
      dsimp only at h
      split at h
      · rename_i fm vm hf hv
        simp only [Option.some.injEq] at h
        subst h
        obtain ⟨⟨fn, hfn⟩, fext, flen, fl, fi⟩ := addFeature_spec hf
        obtain ⟨⟨vn, hvn⟩, vext, vlen, vl, vi⟩ :=
          addValue_spec hv hlen hinv.vnil hinv.vpos hinv.vinj hinv.vlen
        refine ⟨fl hinv.flt, fi hinv.flt hinv.finj, vext _ _ hinv.vnil, vl, vi,
          Nat.lt_of_lt_of_le hinv.vlen vlen, ?_⟩
        intro y s' hmem
        have opslook : ∀ y o ops, List.lookup y ((x, o) :: ops) =
            if y = x then some o else List.lookup (β := FdOperation) y ops := by
          intro y o ops
          simp only [List.lookup_cons]
          by_cases e : y = x
          · simp [e]
          · have : (y == x) = false := by simpa using e
            simp [this, e]
        simp only [opslook, hfn, hvn, Option.getD_some]
        by_cases e : y = x
        · subst e
          have hs' : s' = s := by
            rcases List.mem_cons.mp hmem with h | h
            · simpa using h
            · exact hcons _ h
          subst hs'
          exact ⟨op, f, v?, fn, vn, hsplit, hfn, hvn, by simp⟩
        · have hm : (y, s') ∈ defs := by
            rcases List.mem_cons.mp hmem with h | h
            · simp at h; exact absurd h.1 e
            · exact h
          obtain ⟨op', f', v', fn', vn', a1, a2, a3, a4⟩ := hinv.ops y s' hm
          exact ⟨op', f', v', fn', vn', a1, fext _ _ a2, vext _ _ a3, by simp [e, a4]⟩
      · simp at h
  · simp at h

theorem define_len {T : Type} {t t' : FdTable T} {x : T}
    {s : Str} (h : t.define x s = some t') : t.valueMap.length ≤ t'.valueMap.length := by
  unfold FdTable.define at h
  split at h
  · split at h
    · simp at h
    · dsimp only at h
      split at h
      · rename_i fm vm hf hv
        simp only [Option.some.injEq] at h
        subst h
        unfold addValue at hv
        split at hv
        · simp at hv; simp [hv]
        · simp only [Option.map_eq_some_iff] at hv
          obtain ⟨n, _, rfl⟩ := hv
          simp
      · simp at h
  · simp at h

theorem defineAll_len {T : Type} {t t' : FdTable T} {defs : List (T × Str)}
    (h : t.defineAll defs = some t') : t.valueMap.length ≤ t'.valueMap.length := by
  induction defs generalizing t with
  | nil => simp [FdTable.defineAll] at h; simp [h]
  | cons d rest ih =>
    obtain ⟨x, s⟩ := d
    simp only [FdTable.defineAll, Option.bind_eq_some_iff] at h
    obtain ⟨t1, h1, h2⟩ := h
    exact Nat.le_trans (define_len h1) (ih h2)

theorem defineAll_inv {T : Type} [DecidableEq T] (name : T → Str) {t t' : FdTable T}
    {defs done : List (T × Str)}
    (h : t.defineAll defs = some t') (hinv : t.Inv done) (hlen : t'.valueMap.length ≤ 32767)
    (hn : ∀ d ∈ defs, d.2 = name d.1) (hn' : ∀ d ∈ done, d.2 = name d.1) :
    t'.Inv (defs.reverse ++ done) := by
  induction defs generalizing t done with
  | nil => simp [FdTable.defineAll] at h; subst h; simpa using hinv
  | cons d rest ih =>
    obtain ⟨x, s⟩ := d
    simp only [FdTable.defineAll, Option.bind_eq_some_iff] at h
    obtain ⟨t1, h1, h2⟩ := h
    have hl1 : t1.valueMap.length ≤ 32767 := Nat.le_trans (defineAll_len h2) hlen
    have hs : s = name x := hn (x, s) (by simp)
    have i1 := define_inv h1 hinv hl1 (by
      intro s' hs'
      have := hn' _ hs'
      simp at this
      rw [this, hs])
    have := ih h2 i1 (fun d hd => hn d (by simp [hd])) (by
      intro d hd
      rcases List.mem_cons.mp hd with rfl | hd
      · exact hs
      · exact hn' d hd)
    simpa using this

theorem empty_inv {T : Type} [BEq T] : (FdTable.empty : FdTable T).Inv [] := by
  refine ⟨by simp [FdTable.empty], by simp [FdTable.empty], by simp [FdTable.empty], ?_, ?_,
    by simp [FdTable.empty], by simp⟩
  · intro v n hv hl
    have : (v == []) = false := by simpa using hv
    simp [FdTable.empty, List.lookup_cons, this] at hl
  · intro v w n hv hw
    simp only [FdTable.empty, List.lookup_cons, List.lookup_nil] at hv hw
    split at hv <;> split at hw <;> simp_all

/-- The operations of a table are good in the sense of C02 when no P, N or U symbol has an empty value. -/
theorem tableOps_good {T : Type} [BEq T] {t : FdTable T} {defs : List (T × Str)}
    (hinv : t.Inv defs) (hlen : t.valueMap.length ≤ 32767) (x : T) (s : Str) (hx : (x, s) ∈ defs)
    (hd : isDiacritic s = true) (hne : getValue s = some [] → hasValue s = false) :
    ∃ o, t.getOperation x = some o ∧ GoodOp t.numFeatures o := by
  obtain ⟨op, f, v, fn, vn, h1, h2, h3, h4⟩ := hinv.ops x s hx
  refine ⟨_, h4, ?_⟩
  have hlt := hinv.flt _ _ h2
  obtain ⟨o', f', v', hw, rfl⟩ := (C01_isDiacritic_iff s).mp hd
  obtain ⟨p1, p2, p3, p4⟩ := C01_parts o' f' v' hw
  rw [splitDiacritic_spell _ _ _ hw] at h1
  rw [Option.map_eq_some_iff] at h1
  obtain ⟨op', hop', heq⟩ := h1
  simp at heq
  obtain ⟨rfl, rfl, rfl⟩ := heq
  rw [p3, p4] at hne
  cases v' with
  | none =>
    simp at h3
    rw [hinv.vnil] at h3
    simp at h3; subst h3
    obtain ⟨_, hrdc⟩ := hw.2.2 rfl
    refine ⟨hlt, by simp, by simp, fun _ => ?_⟩
    simp at hrdc
    rcases hrdc with rfl | rfl | rfl <;> simp [charToOperator] at hop' <;> simp [← hop']
  | some w =>
    have hw0 : w ≠ [] := by
      rintro rfl
      simp at hne
    simp at h3
    have := hinv.vpos _ _ hw0 h3
    refine ⟨hlt, by simp; omega, by simp; omega, fun hz => ?_⟩
    simp at hz; omega

/-- How a number of the one engine represents an entry of the other. -/
def Rep {T : Type} (t : FdTable T) (c : Int) : Option (Str × Bool) → Prop
  | none => c = 0
  | some (v, true) => v ≠ [] ∧ t.valueMap.lookup v = some c
  | some (v, false) => v ≠ [] ∧ t.valueMap.lookup v = some (-c)

/-- The simulation relation between the two engines. -/
structure Sim {T : Type} (t : FdTable T) (st : FdState) (s : SFlags) : Prop where
  noErr : s.errorFlag = false
  len : st.values.length = t.numFeatures
  val : ∀ f n, t.featureMap.lookup f = some n →
    ∃ c, st.values[n]? = some c ∧ Rep t c (s.vals.lookup f)

theorem lookup_filter_ne {β : Type} (l : List (Str × β)) (f g : Str) :
    (l.filter (fun e => e.1 ≠ f)).lookup g = if g = f then none else l.lookup g := by
  induction l with
  | nil => simp
  | cons e l ih =>
    obtain ⟨k, b⟩ := e
    simp only [List.filter_cons, List.lookup_cons]
    by_cases h1 : k = f
    · subst h1
      simp only [ne_eq, not_true_eq_false, decide_false, Bool.false_eq_true, if_false, ih]
      by_cases h2 : g = k
      · simp [h2]
      · have : (g == k) = false := by simpa using h2
        simp [h2, this]
    · simp only [ne_eq, h1, not_false_eq_true, decide_true, if_true, List.lookup_cons, ih]
      by_cases h2 : g = k
      · subst h2; simp [h1]
      · have : (g == k) = false := by simpa using h2
        simp [this]

theorem put_lookup (s : SFlags) (f v g : Str) (pol : Bool) :
    (s.put f v pol).vals.lookup g = if g = f then some (v, pol) else s.vals.lookup g := by
  simp only [SFlags.put, List.lookup_cons]
  by_cases h : g = f
  · simp [h]
  · have : (g == f) = false := by simpa using h
    simp only [this, lookup_filter_ne, h, if_false]

theorem Sim.set {T : Type} [BEq T] {t : FdTable T} {defs : List (T × Str)} (hinv : t.Inv defs)
    {st : FdState} {s s' : SFlags}
    (h : Sim t st s) {f : Str} {n : Nat} (hn : t.featureMap.lookup f = some n) {c : Int}
    {r : Option (Str × Bool)} (hr : Rep t c r) (he : s'.errorFlag = false)
    (hl : ∀ g, s'.vals.lookup g = if g = f then r else s.vals.lookup g) :
    Sim t { st with values := st.values.set n c } s' := by
  refine ⟨he, by simpa using h.len, ?_⟩
  intro g m hm
  simp only [List.getElem?_set]
  by_cases e : g = f
  · subst e
    rw [hn] at hm
    simp at hm; subst hm
    have := hinv.flt _ _ hn
    have hlen : n < st.values.length := by rw [h.len]; exact this
    exact ⟨c, by simp [hlen], by rw [hl]; simpa using hr⟩
  · have hne : n ≠ m := by
      rintro rfl
      exact e (hinv.finj _ _ _ hm hn)
    obtain ⟨c', h1, h2⟩ := h.val g m hm
    exact ⟨c', by simp [hne, h1], by rw [hl]; simpa [e] using h2⟩

/-- One symbol of the simulation. -/
theorem sim_step {T : Type} [BEq T] {t : FdTable T} {defs : List (T × Str)}
    (hinv : t.Inv defs) (hlen : t.valueMap.length ≤ 32767) {x : T} {sym : Str} (hx : (x, sym) ∈ defs)
    (hd : isDiacritic sym = true) (hne : getValue sym = some [] → hasValue sym = false)
    {st : FdState} {s : SFlags} (h : Sim t st s) :
    ∃ b st', st.applySymbol t x = some (b, st') ∧ ((s.insertSymbol sym).errorFlag = !b) ∧
      (b = true → Sim t st' (s.insertSymbol sym)) := by
  obtain ⟨o0, hg0, hgood⟩ := tableOps_good hinv hlen x sym hx hd hne
  obtain ⟨op, f, v, fn, vn, h1, h2, h3, h4⟩ := hinv.ops x sym hx
  rw [FdTable.getOperation, h4] at hg0
  simp at hg0; subst hg0
  have hv : v ≠ some [] := by
    rintro rfl
    obtain ⟨o', f', v', hw, rfl⟩ := (C01_isDiacritic_iff sym).mp hd
    obtain ⟨_, _, p3, p4⟩ := C01_parts o' f' v' hw
    rw [splitDiacritic_spell _ _ _ hw] at h1
    rw [Option.map_eq_some_iff] at h1
    obtain ⟨op', _, heq⟩ := h1
    simp at heq
    obtain ⟨_, _, rfl⟩ := heq
    simp [p3, p4] at hne
  have hvn0 : v = none → vn = 0 := by
    rintro rfl
    simp at h3; rw [hinv.vnil] at h3; simpa using h3.symm
  have hvnp : ∀ w, v = some w → w ≠ [] ∧ t.valueMap.lookup w = some vn ∧ 0 < vn ∧ vn ≤ 32767 := by
    rintro w rfl
    have hw : w ≠ [] := by rintro rfl; exact hv rfl
    simp at h3
    have := hinv.vpos _ _ hw h3
    exact ⟨hw, h3, this.1, by omega⟩
  obtain ⟨c, hc1, hc2⟩ := h.val f fn h2
  simp only [FdState.applySymbol, FdTable.getOperation, h4, FdState.apply, hc1]
  have hgood4 := hgood.2.2.2
  simp only [SFlags.insertSymbol, hd, if_true, h1]
  have vpos' : ∀ w n, w ≠ [] → t.valueMap.lookup w = some n → 0 < n := fun w n a b => (hinv.vpos w n a b).1
  have vinj := hinv.vinj
  rcases op with _ | _ | _ | _ | _ | _
  · -- P
    obtain ⟨w, rfl⟩ : ∃ w, v = some w := by
      cases v with
      | none => have := hgood4 (hvn0 rfl); simp at this
      | some w => exact ⟨w, rfl⟩
    obtain ⟨hw, hl, hp, hb⟩ := hvnp w rfl
    refine ⟨_, _, rfl, by simp [SFlags.put, h.noErr], fun _ => ?_⟩
    exact h.set hinv h2 (r := some (w, true)) ⟨hw, hl⟩ (by simp [SFlags.put, h.noErr])
      (fun g => put_lookup s f w g true)
  · -- N
    obtain ⟨w, rfl⟩ : ∃ w, v = some w := by
      cases v with
      | none => have := hgood4 (hvn0 rfl); simp at this
      | some w => exact ⟨w, rfl⟩
    obtain ⟨hw, hl, hp, hb⟩ := hvnp w rfl
    refine ⟨_, _, rfl, by simp [SFlags.put, h.noErr], fun _ => ?_⟩
    have hsh : toShort (-1 * vn) = -vn := by rw [toShort_id] <;> omega
    simp only [hsh]
    exact h.set hinv h2 (r := some (w, false)) ⟨hw, by simpa using hl⟩ (by simp [SFlags.put, h.noErr])
      (fun g => put_lookup s f w g false)
  · -- R
    cases v with
    | none =>
      have hz := hvn0 rfl
      subst hz
      refine ⟨_, _, rfl, ?_, ?_⟩
      · simp only [SFlags.require]
        rcases hs : s.vals.lookup f with _ | ⟨w, pol⟩
        · rw [hs] at hc2; simp [Rep] at hc2; simp [hc2]
        · rw [hs] at hc2
          cases pol <;> simp [Rep] at hc2 <;> have := vpos' _ _ hc2.1 hc2.2 <;> simp [h.noErr] <;> omega
      · intro hb
        simp only [SFlags.require]
        rcases hs : s.vals.lookup f with _ | ⟨w, pol⟩
        · rw [hs] at hc2; simp [Rep] at hc2; simp [hc2] at hb
        · exact h
    | some w =>
      obtain ⟨hw, hl, hp, hb⟩ := hvnp w rfl
      have hnz : vn ≠ 0 := by omega
      simp only [hnz, if_false]
      refine ⟨_, _, rfl, ?_, ?_⟩
      · simp only [SFlags.requireValue]
        rcases hs : s.vals.lookup f with _ | ⟨u, pol⟩
        · rw [hs] at hc2; simp [Rep] at hc2; simp [hc2]; omega
        · rw [hs] at hc2
          by_cases e : u = w
          · subst e
            cases pol
            · simp only [Rep, hl] at hc2; simp at hc2; simp; omega
            · simp only [Rep, hl] at hc2; simp at hc2; simp [h.noErr, hc2]
          · have : c ≠ vn := by
              rintro rfl
              cases pol
              · simp only [Rep] at hc2; have := vpos' _ _ hc2.1 hc2.2; omega
              · simp only [Rep] at hc2; exact e (vinj _ _ _ hc2.2 hl)
            simp [e, this]
      · intro hb
        simp at hb
        simp only [SFlags.requireValue]
        rcases hs : s.vals.lookup f with _ | ⟨u, pol⟩
        · rw [hs] at hc2; simp [Rep] at hc2; omega
        · rw [hs] at hc2
          cases pol
          · simp only [Rep] at hc2; have := vpos' _ _ hc2.1 hc2.2; omega
          · simp only [Rep] at hc2
            have : u = w := vinj _ _ _ hc2.2 (by rw [hl, hb])
            simp [this]; exact h
  · -- D
    cases v with
    | none =>
      have hz := hvn0 rfl
      subst hz
      refine ⟨_, _, rfl, ?_, ?_⟩
      · simp only [SFlags.disallow]
        rcases hs : s.vals.lookup f with _ | ⟨w, pol⟩
        · rw [hs] at hc2; simp [Rep] at hc2; simp [hc2, h.noErr]
        · rw [hs] at hc2
          cases pol <;> simp [Rep] at hc2 <;> have := vpos' _ _ hc2.1 hc2.2 <;> simp <;> omega
      · intro hb
        simp at hb
        simp only [SFlags.disallow]
        rcases hs : s.vals.lookup f with _ | ⟨w, pol⟩
        · exact h
        · rw [hs] at hc2
          cases pol <;> simp [Rep] at hc2 <;> have := vpos' _ _ hc2.1 hc2.2 <;> omega
    | some w =>
      obtain ⟨hw, hl, hp, hb⟩ := hvnp w rfl
      have hnz : vn ≠ 0 := by omega
      simp only [hnz, if_false]
      have key : ∀ b : Bool, b = decide (c ≠ vn) → (s.disallowValue f w).errorFlag = !b := by
        rintro b rfl
        simp only [SFlags.disallowValue]
        rcases hs : s.vals.lookup f with _ | ⟨u, pol⟩
        · rw [hs] at hc2; simp [Rep] at hc2; simp [hc2, h.noErr]; omega
        · rw [hs] at hc2
          by_cases e : u = w
          · subst e
            cases pol
            · simp only [Rep, hl] at hc2; simp at hc2; simp [h.noErr]; omega
            · simp only [Rep, hl] at hc2; simp at hc2; simp [hc2]
          · have : c ≠ vn := by
              rintro rfl
              cases pol
              · simp only [Rep] at hc2; have := vpos' _ _ hc2.1 hc2.2; omega
              · simp only [Rep] at hc2; exact e (vinj _ _ _ hc2.2 hl)
            simp [e, this, h.noErr]
      refine ⟨_, _, rfl, key _ rfl, ?_⟩
      intro hb
      have k := key _ rfl
      rw [hb] at k
      have : (s.disallowValue f w) = s := by
        simp only [SFlags.disallowValue] at k ⊢
        split
        · rfl
        · rename_i u pol hs
          rw [hs] at k
          split
          · rename_i e
            simp [e] at k
            cases s; simp_all
          · rfl
      rw [this]; exact h
  · -- C
    refine ⟨_, _, rfl, ?_, fun _ => ?_⟩
    · cases v <;> simp [SFlags.clear, h.noErr]
    · have : Sim t { st with values := st.values.set fn 0 } (s.clear f) :=
        h.set hinv h2 (r := none) rfl (by simp [SFlags.clear, h.noErr])
          (fun g => by simp only [SFlags.clear, lookup_filter_ne])
      cases v <;> exact this
  · -- U
    obtain ⟨w, rfl⟩ : ∃ w, v = some w := by
      cases v with
      | none => have := hgood4 (hvn0 rfl); simp at this
      | some w => exact ⟨w, rfl⟩
    obtain ⟨hw, hl, hp, hb⟩ := hvnp w rfl
    have hput : Sim t { st with values := st.values.set fn vn } (s.put f w true) :=
      h.set hinv h2 (r := some (w, true)) ⟨hw, hl⟩ (by simp [SFlags.put, h.noErr])
        (fun g => put_lookup s f w g true)
    have hreq : (s.put f w true).requireValue f w = s.put f w true := by
      simp only [SFlags.requireValue, put_lookup]
      simp
    simp only [Option.getD_some, SFlags.unify]
    rcases hs : s.vals.lookup f with _ | ⟨u, pol⟩
    · rw [hs] at hc2; simp [Rep] at hc2
      refine ⟨true, { st with values := st.values.set fn vn }, by simp [hc2], ?_, fun _ => ?_⟩
      · simp [hreq, hput.noErr]
      · simp only [hreq]; exact hput
    · rw [hs] at hc2
      by_cases e : u = w
      · subst e
        cases pol
        · simp only [Rep, hl] at hc2
          obtain ⟨_, hc⟩ := hc2
          simp at hc
          refine ⟨false, st, ?_, ?_, by simp⟩
          · have : ¬ (c = 0 ∨ c = vn ∨ (c < 0 ∧ c * (-1) ≠ vn)) := by omega
            simp only [this, if_false]
          · simp [SFlags.requireValue, hs]
        · simp only [Rep, hl] at hc2
          obtain ⟨_, hc⟩ := hc2
          simp at hc; subst hc
          refine ⟨true, { st with values := st.values.set fn vn }, by simp, ?_, fun _ => ?_⟩
          · simp [SFlags.requireValue, hs, h.noErr]
          · have e1 : st.values.set fn vn = st.values := by
              apply List.ext_getElem?
              intro i
              rw [List.getElem?_set]
              split
              · rename_i hi; subst hi
                split
                · rw [hc1]
                · rename_i hi; rw [List.getElem?_eq_none (by omega)] at hc1; simp at hc1
              · rfl
            have e2 : s.requireValue f u = s := by
              have := h.noErr
              cases s
              simp_all [SFlags.requireValue]
            simp only [e1]
            simp [e2]; exact h
      · have hcv : c ≠ vn := by
          rintro rfl
          cases pol
          · simp only [Rep] at hc2; have := vpos' _ _ hc2.1 hc2.2; omega
          · simp only [Rep] at hc2; exact e (vinj _ _ _ hc2.2 hl)
        cases pol
        · simp only [Rep] at hc2
          have hneg := vpos' _ _ hc2.1 hc2.2
          have hne' : -c ≠ vn := by
            intro hh
            exact e (vinj _ _ _ hc2.2 (by rw [hl, hh]))
          refine ⟨true, { st with values := st.values.set fn vn }, ?_, ?_, fun _ => ?_⟩
          · have : (c = 0 ∨ c = vn ∨ (c < 0 ∧ c * (-1) ≠ vn)) := by omega
            simp only [this, if_true]
          · simp [e, hreq, hput.noErr]
          · simp [e, hreq]; exact hput
        · simp only [Rep] at hc2
          have hpos := vpos' _ _ hc2.1 hc2.2
          refine ⟨false, st, ?_, ?_, by simp⟩
          · have : ¬ (c = 0 ∨ c = vn ∨ (c < 0 ∧ c * (-1) ≠ vn)) := by omega
            simp only [this, if_false]
          · simp [e, SFlags.requireValue, hs]

/-- A symbol is free of the empty value (`@P.F.@` and the like). -/
def NoEmptyValue (s : Str) : Prop := isDiacritic s = true → getValue s = some [] → hasValue s = false

/-- C03: the two engines let the same paths through.  The table may hold the flags in any numbering (`T` is
the type of symbol numbers, `name` their spelling) and in any order of definition, as long as it could be
built and no more than 32767 different values occur; `w` may use any symbols, provided its flags are in the
table.  `some` says that the engine with numbers stays inside its vector. -/
theorem C03_engines_agree_partial {T : Type} [DecidableEq T] (name : T → Str) (defs : List T) (t : FdTable T)
    (ht : FdTable.empty.defineAll (defs.map fun x => (x, name x)) = some t)
    (hlen : t.valueMap.length ≤ 32767) (hne : ∀ x ∈ defs, NoEmptyValue (name x))
    (w : List T) (hw : ∀ x ∈ w, isDiacritic (name x) = true → x ∈ defs) :
    t.passes (FdState.init t.numFeatures) w = some (sIsValidString (w.map name)) := by
  have hinv : t.Inv ((defs.map fun x => (x, name x)).reverse ++ []) :=
    defineAll_inv name ht empty_inv hlen (by simp) (by simp)
  have hdefs : ∀ x ∈ defs, (x, name x) ∈ (defs.map fun x => (x, name x)).reverse ++ [] := by
    intro x hx
    simp; exact ⟨x, hx, rfl, rfl⟩
  have hops : ∀ x, t.getOperation x ≠ none → isDiacritic (name x) = true := by
    have gen : ∀ (l : List T) (t0 t1 : FdTable T), t0.defineAll (l.map fun x => (x, name x)) = some t1 →
        (∀ x, t0.getOperation x ≠ none → isDiacritic (name x) = true) →
        (∀ x, t1.getOperation x ≠ none → isDiacritic (name x) = true) := by
      intro l
      induction l with
      | nil => intro t0 t1 h; simp [FdTable.defineAll] at h; subst h; exact fun h => h
      | cons y l ih =>
        intro t0 t1 h h0
        simp only [List.map_cons, FdTable.defineAll, Option.bind_eq_some_iff] at h
        obtain ⟨t2, h2, h3⟩ := h
        refine ih t2 t1 h3 ?_
        intro x hx
        unfold FdTable.define at h2
        split at h2
        · rename_i hd
          by_cases e : x = y
          · subst e; exact hd
          · apply h0
            split at h2
            · simp at h2
            · dsimp only at h2
              split at h2
              · simp only [Option.some.injEq] at h2
                subst h2
                have : (x == y) = false := by simpa using e
                simpa [FdTable.getOperation, List.lookup_cons, this] using hx
              · simp at h2
        · simp at h2
    exact gen defs _ _ ht (by simp [FdTable.getOperation, FdTable.empty])
  have main : ∀ (w : List T) (st : FdState) (s : SFlags), Sim t st s →
      (∀ x ∈ w, isDiacritic (name x) = true → x ∈ defs) →
      t.passes st w = some (s.run (w.map name)) := by
    intro w
    induction w with
    | nil => intro st s _ _; rfl
    | cons x w ih =>
      intro st s hs hw
      have hw' : ∀ x ∈ w, isDiacritic (name x) = true → x ∈ defs := fun y hy => hw y (by simp [hy])
      simp only [FdTable.passes, List.map_cons, SFlags.run]
      by_cases hd : isDiacritic (name x) = true
      · have hx := hw x (by simp) hd
        obtain ⟨b, st', h1, h2, h3⟩ := sim_step hinv hlen (hdefs x hx) hd (hne x hx hd) hs
        rw [h1, h2]
        cases b with
        | false => simp
        | true => simp [ih st' _ (h3 rfl) hw']
      · have hnone : t.getOperation x = none := by
          by_cases h : t.getOperation x = none
          · exact h
          · exact absurd (hops x h) hd
        have hins : s.insertSymbol (name x) = s := by simp [SFlags.insertSymbol, hd]
        simp [FdState.applySymbol, hnone, hins, hs.noErr, ih st s hs hw']
  refine main w _ _ ?_ hw
  refine ⟨rfl, by simp [FdState.init], ?_⟩
  intro f n hf
  have := hinv.flt f n hf
  refine ⟨0, ?_, ?_⟩
  · simp [FdState.init, FdTable.numFeatures, this]
  · simp [SFlags.init, Rep]

/-- The spelling used in the examples below. -/
def exampleName : Nat → Str
  | 0 => "a".toList
  | 1 => "@P.F.x@".toList
  | 2 => "@R.F.x@".toList
  | 3 => "@U.G.x@".toList
  | 4 => "@P.F.@".toList
  | 5 => "@D.F@".toList
  | _ => "b".toList

example : ∃ t, FdTable.empty.defineAll ([1, 2, 3].map fun x => (x, exampleName x)) = some t ∧
    t.valueMap.length ≤ 32767 ∧ t.passes (FdState.init t.numFeatures) [0, 1, 2, 3] = some true ∧
    t.passes (FdState.init t.numFeatures) [0, 2] = some false := by
  refine ⟨_, rfl, ?_, ?_, ?_⟩ <;> decide

/-- C03 violated when a flag has an empty value: the engine with numbers takes `@P.F.@` as clearing the
feature, the engine with strings as setting it, so `@P.F.@ @D.F@` passes in one and not in the other. -/
theorem C03_violated : ∃ t, FdTable.empty.defineAll ([4, 5].map fun x => (x, exampleName x)) = some t ∧
    t.passes (FdState.init t.numFeatures) [4, 5] = some true ∧
    sIsValidString ([4, 5].map exampleName) = false := by
  refine ⟨_, rfl, ?_, ?_⟩ <;> decide

end Hfst.Flags
