import Verif.Model.SfstMin

/-!
# Splitting groups by a set of states

What `Hop.process` does to the groups: each group is split into the states that are among the sources and
the others; a group on the agenda leaves all its parts there, another one at least one of two.
-/

namespace Hfst.Sfst

theorem mem_linkIn {s x : Nat} {xs : List Nat} : x ∈ linkIn s xs ↔ x = s ∨ x ∈ xs := by
  cases xs with
  | nil => simp [linkIn]
  | cons y ys =>
    simp only [linkIn, List.mem_cons]
    constructor
    · rintro (h | h | h)
      · exact .inr (.inl h)
      · exact .inl h
      · exact .inr (.inr h)
    · rintro (h | h | h)
      · exact .inr (.inl h)
      · exact .inl h
      · exact .inr (.inr h)

theorem linkIn_ne_nil {s : Nat} {xs : List Nat} : linkIn s xs ≠ [] := by
  cases xs <;> exact List.cons_ne_nil _ _

theorem nodup_linkIn {s : Nat} {xs : List Nat} (h : xs.Nodup) (hs : s ∉ xs) : (linkIn s xs).Nodup := by
  cases xs with
  | nil => simp [linkIn]
  | cons y ys =>
    obtain ⟨h1, h2⟩ := List.nodup_cons.1 h
    refine List.nodup_cons.2 ⟨?_, List.nodup_cons.2 ⟨fun h => hs (List.mem_cons_of_mem _ h), h2⟩⟩
    intro h
    rcases List.mem_cons.1 h with h | h
    · exact hs (h ▸ List.mem_cons_self ..)
    · exact h1 h

theorem mem_addAgenda {b g : Nat} {a : List (Nat × Nat)} {e : Nat × Nat} :
    e ∈ addAgenda b g a ↔ e = (b, g) ∨ e ∈ a := by
  induction a with
  | nil => simp [addAgenda]
  | cons x xs ih =>
    unfold addAgenda
    split
    · simp only [List.mem_cons]
    · rw [List.mem_cons, ih, List.mem_cons]
      constructor
      · rintro (h | h | h)
        · exact .inr (.inl h)
        · exact .inl h
        · exact .inr (.inr h)
      · rintro (h | h | h)
        · exact .inr (.inl h)
        · exact .inl h
        · exact .inr (.inr h)

theorem length_addAgenda (b g : Nat) (a : List (Nat × Nat)) : (addAgenda b g a).length = a.length + 1 := by
  induction a with
  | nil => rfl
  | cons x xs ih =>
    unfold addAgenda
    split
    · rfl
    · simp only [List.length_cons, ih]

/-- A group is on the agenda. -/
def OnAgenda (g : Nat) (a : List (Nat × Nat)) : Prop := ∃ e ∈ a, e.2 = g

theorem onAgenda_iff {g : Nat} {a : List (Nat × Nat)} : onAgenda g a = true ↔ OnAgenda g a := by
  unfold onAgenda OnAgenda
  rw [List.any_eq_true]
  constructor
  · rintro ⟨e, he, h⟩; exact ⟨e, he, by simpa using h⟩
  · rintro ⟨e, he, h⟩; exact ⟨e, he, by simpa using h⟩

theorem onAgenda_add {b g h : Nat} {a : List (Nat × Nat)} :
    OnAgenda h (addAgenda b g a) ↔ h = g ∨ OnAgenda h a := by
  constructor
  · rintro ⟨e, he, rfl⟩
    rcases mem_addAgenda.1 he with rfl | he
    · exact .inl rfl
    · exact .inr ⟨e, he, rfl⟩
  · rintro (rfl | ⟨e, he, rfl⟩)
    · exact ⟨_, mem_addAgenda.2 (.inl rfl), rfl⟩
    · exact ⟨e, mem_addAgenda.2 (.inr he), rfl⟩

theorem onAgenda_erase {g h : Nat} {a : List (Nat × Nat)} (hne : h ≠ g) (ho : OnAgenda h a) :
    OnAgenda h (eraseAgenda g a) := by
  obtain ⟨e, he, rfl⟩ := ho
  exact ⟨e, List.mem_filter.2 ⟨he, by simpa using hne⟩, rfl⟩

theorem length_erase {g : Nat} {a : List (Nat × Nat)} (ho : OnAgenda g a) :
    (eraseAgenda g a).length + 1 ≤ a.length := by
  obtain ⟨e, he, rfl⟩ := ho
  unfold eraseAgenda
  induction a with
  | nil => cases he
  | cons x xs ih =>
    rcases List.mem_cons.1 he with rfl | he
    · rw [List.filter_cons_of_neg (by simp)]
      have := List.length_filter_le (fun e' => !(e'.2 == e.2)) xs
      simp only [List.length_cons]
      omega
    · have := ih he
      by_cases hx : (!(x.2 == e.2)) = true
      · rw [List.filter_cons_of_pos (p := fun e' : Nat × Nat => !(e'.2 == e.2)) hx]
        simp only [List.length_cons]
        omega
      · rw [List.filter_cons_of_neg (p := fun e' : Nat × Nat => !(e'.2 == e.2)) hx]
        simp only [List.length_cons]
        omega

/-- The groups between two labels: they hold each state once, and none is empty. -/
structure HGood (V : List Nat) (H : Hop) : Prop where
  fresh : ∀ (i : Nat) (G : HGroup), H.groups[i]? = some G → G.fresh = []
  full : ∀ (i : Nat) (G : HGroup), H.groups[i]? = some G → G.states ≠ []
  nodup : ∀ (i : Nat) (G : HGroup), H.groups[i]? = some G → G.states.Nodup
  mem : ∀ s ∈ V, ∃ G, H.groups[H.groupOf s]? = some G ∧ s ∈ G.states
  only : ∀ (i : Nat) (G : HGroup) (s : Nat), H.groups[i]? = some G → s ∈ G.states → s ∈ V ∧ H.groupOf s = i

/-- The groups while those in `T` are still to be worked on, for the set of sources `S`. -/
structure Mid (V : List Nat) (S : Nat → Prop) (H : Hop) (T : List Nat) : Prop where
  tnodup : T.Nodup
  tlow : ∀ i ∈ T, i < H.groups.length
  work : ∀ i ∈ T, ∀ G, H.groups[i]? = some G → G.fresh ≠ [] ∧ (∀ s ∈ G.states, ¬ S s) ∧ ∀ s ∈ G.fresh, S s
  idle : ∀ i, i ∉ T → ∀ G : HGroup, H.groups[i]? = some G →
    G.fresh = [] ∧ G.states ≠ [] ∧ ∀ s ∈ G.states, ∀ t ∈ G.states, (S s ↔ S t)
  nodup : ∀ (i : Nat) (G : HGroup), H.groups[i]? = some G → G.states.Nodup ∧ G.fresh.Nodup
  mem : ∀ s ∈ V, ∃ G, H.groups[H.groupOf s]? = some G ∧ (s ∈ G.states ∨ s ∈ G.fresh)
  only : ∀ (i : Nat) (G : HGroup) (s : Nat), H.groups[i]? = some G → s ∈ G.states ∨ s ∈ G.fresh → s ∈ V ∧ H.groupOf s = i

/-- How the groups after a step are related to those before. -/
structure Finer (V : List Nat) (S : Nat → Prop) (H H' : Hop) : Prop where
  fine : ∀ s ∈ V, ∀ t ∈ V, H'.groupOf s = H'.groupOf t → H.groupOf s = H.groupOf t
  coarse : ∀ s ∈ V, ∀ t ∈ V, H.groupOf s = H.groupOf t → (S s ↔ S t) → H'.groupOf s = H'.groupOf t
  stay : ∀ s ∈ V, OnAgenda (H.groupOf s) H.agenda → OnAgenda (H'.groupOf s) H'.agenda
  half : ∀ s ∈ V, ∀ t ∈ V, H.groupOf s = H.groupOf t → H'.groupOf s ≠ H'.groupOf t →
    OnAgenda (H'.groupOf s) H'.agenda ∨ OnAgenda (H'.groupOf t) H'.agenda
  grow : H.groups.length ≤ H'.groups.length
  len : H'.agenda.length + H.groups.length ≤ H.agenda.length + H'.groups.length

theorem Finer.refl {V : List Nat} {S : Nat → Prop} (H : Hop) : Finer V S H H :=
  ⟨fun _ _ _ _ h => h, fun _ _ _ _ h _ => h, fun _ _ h => h, fun _ _ _ _ h h' => absurd h h',
    Nat.le_refl _, Nat.le_refl _⟩

theorem Finer.trans {V : List Nat} {S : Nat → Prop} {H H' H'' : Hop} (h : Finer V S H H')
    (h' : Finer V S H' H'') : Finer V S H H'' := by
  refine ⟨fun s hs t ht he => h.fine s hs t ht (h'.fine s hs t ht he),
    fun s hs t ht he hS => h'.coarse s hs t ht (h.coarse s hs t ht he hS) hS,
    fun s hs ho => h'.stay s hs (h.stay s hs ho), fun s hs t ht he hne => ?_,
    Nat.le_trans h.grow h'.grow, ?_⟩
  · by_cases h1 : H'.groupOf s = H'.groupOf t
    · exact h'.half s hs t ht h1 hne
    · exact (h.half s hs t ht he h1).imp (h'.stay s hs) (h'.stay t ht)
  · have := h.len; have := h'.len; omega

theorem getElem?_split {gs : List HGroup} {g : Nat} {f : HGroup → HGroup} {x : HGroup} {i : Nat} {G : HGroup}
    (h : (gs.modify g f ++ [x])[i]? = some G) :
    (i = gs.length ∧ G = x) ∨ (i < gs.length ∧ ∃ G0, gs[i]? = some G0 ∧ G = if g = i then f G0 else G0) := by
  rw [List.getElem?_append] at h
  split at h
  · next hi =>
    rw [List.length_modify] at hi
    rw [List.getElem?_modify] at h
    refine .inr ⟨hi, ?_⟩
    cases h0 : gs[i]? with
    | none => rw [h0] at h; cases h
    | some G0 =>
      rw [h0] at h
      refine ⟨G0, rfl, ?_⟩
      by_cases hg : g = i
      · rw [if_pos hg]; simp [hg] at h; exact h.symm
      · rw [if_neg hg]; simp [hg] at h; exact h.symm
  · next hi =>
    rw [List.length_modify] at hi h
    rcases Nat.eq_or_lt_of_le (Nat.le_of_not_lt hi) with he | he
    · subst he
      simp at h
      exact .inl ⟨rfl, h.symm⟩
    · have : ([x] : List HGroup)[i - gs.length]? = none := by
        apply List.getElem?_eq_none
        simp only [List.length_cons, List.length_nil]
        omega
      rw [this] at h
      cases h

theorem getElem?_split_old {gs : List HGroup} {g : Nat} {f : HGroup → HGroup} {x : HGroup} {i : Nat} {G : HGroup}
    (h : gs[i]? = some G) : (gs.modify g f ++ [x])[i]? = some (if g = i then f G else G) := by
  have hi : i < gs.length := by
    by_cases hi : i < gs.length
    · exact hi
    · rw [List.getElem?_eq_none (by omega)] at h; cases h
  rw [List.getElem?_append, if_pos (by rw [List.length_modify]; exact hi), List.getElem?_modify, h]
  by_cases hg : g = i
  · simp [hg]
  · simp [hg]

theorem getElem?_split_new {gs : List HGroup} {g : Nat} {f : HGroup → HGroup} {x : HGroup} :
    (gs.modify g f ++ [x])[gs.length]? = some x := by
  rw [List.getElem?_append, if_neg (by rw [List.length_modify]; omega), List.length_modify]
  simp

/-- Splitting one group. -/
theorem split_step {V : List Nat} {S : Nat → Prop} {H : Hop} {g : Nat} {T : List Nat}
    (h : Mid V S H (g :: T)) {G : HGroup} (hG : H.groups[g]? = some G) (hst : G.states ≠ []) :
    Mid V S (H.split g) T ∧ Finer V S H (H.split g) := by
  obtain ⟨hgT, hT⟩ := List.nodup_cons.1 h.tnodup
  have hglt := h.tlow g (List.mem_cons_self ..)
  obtain ⟨hw1, hw2, hw3⟩ := h.work g (List.mem_cons_self ..) G hG
  have hgroups : (H.split g).groups = H.groups.modify g (fun G => ⟨G.states, []⟩) ++ [⟨G.fresh, []⟩] := by
    unfold Hop.split; rw [hG]
  have hof : ∀ s, (H.split g).groupOf s = if s ∈ G.fresh then H.groups.length else H.groupOf s := by
    intro s; unfold Hop.split; rw [hG]
  have hag : (H.split g).agenda = if onAgenda g H.agenda = true then
          addAgenda G.fresh.length.log2 H.groups.length
            (addAgenda G.states.length.log2 g (eraseAgenda g H.agenda))
        else if G.states.length < G.fresh.length then addAgenda G.states.length.log2 g H.agenda
        else addAgenda G.fresh.length.log2 H.groups.length H.agenda := by
    unfold Hop.split; rw [hG]
  have hlow : ∀ i G, H.groups[i]? = some G → i < H.groups.length := by
    intro i G hi
    by_cases hlt : i < H.groups.length
    · exact hlt
    · rw [List.getElem?_eq_none (by omega)] at hi; cases hi
  have hVlow : ∀ s ∈ V, H.groupOf s < H.groups.length := fun s hs => by
    obtain ⟨G', h1, _⟩ := h.mem s hs
    exact hlow _ _ h1
  -- which parts are on the agenda
  have hadd : OnAgenda g (H.split g).agenda ∨ OnAgenda H.groups.length (H.split g).agenda := by
    rw [hag]
    split
    · exact .inr (onAgenda_add.2 (.inl rfl))
    · split
      · exact .inl (onAgenda_add.2 (.inl rfl))
      · exact .inr (onAgenda_add.2 (.inl rfl))
  have hkeep : ∀ j, j ≠ g → OnAgenda j H.agenda → OnAgenda j (H.split g).agenda := by
    intro j hj ho
    rw [hag]
    split
    · exact onAgenda_add.2 (.inr (onAgenda_add.2 (.inr (onAgenda_erase hj ho))))
    · split
      · exact onAgenda_add.2 (.inr ho)
      · exact onAgenda_add.2 (.inr ho)
  have hboth : OnAgenda g H.agenda → OnAgenda g (H.split g).agenda ∧ OnAgenda H.groups.length (H.split g).agenda := by
    intro ho
    rw [hag, if_pos (onAgenda_iff.2 ho)]
    exact ⟨onAgenda_add.2 (.inr (onAgenda_add.2 (.inl rfl))), onAgenda_add.2 (.inl rfl)⟩
  have hfr : ∀ s ∈ G.fresh, s ∈ V ∧ H.groupOf s = g := fun s hs => h.only g G s hG (.inr hs)
  constructor
  · refine ⟨hT, ?_, ?_, ?_, ?_, ?_, ?_⟩
    · intro i hi
      rw [hgroups, List.length_append, List.length_modify]
      exact Nat.lt_add_right _ (h.tlow i (List.mem_cons_of_mem _ hi))
    · intro i hi G' hG'
      rw [hgroups] at hG'
      have hilt := h.tlow i (List.mem_cons_of_mem _ hi)
      rcases getElem?_split hG' with ⟨h1, _⟩ | ⟨_, G0, h1, h2⟩
      · omega
      · rw [if_neg (fun e : g = i => hgT (e ▸ hi))] at h2
        subst h2
        exact h.work i (List.mem_cons_of_mem _ hi) _ h1
    · intro i hi G' hG'
      rw [hgroups] at hG'
      rcases getElem?_split hG' with ⟨_, rfl⟩ | ⟨_, G0, h1, h2⟩
      · exact ⟨rfl, hw1, fun s hs t ht => ⟨fun _ => hw3 t ht, fun _ => hw3 s hs⟩⟩
      · by_cases hgi : g = i
        · subst hgi
          rw [hG] at h1
          cases h1
          rw [if_pos rfl] at h2
          subst h2
          exact ⟨rfl, hst, fun s hs t ht => ⟨fun h => absurd h (hw2 s hs), fun h => absurd h (hw2 t ht)⟩⟩
        · rw [if_neg hgi] at h2
          subst h2
          exact h.idle i (fun hm => by
            rcases List.mem_cons.1 hm with e | e
            · exact hgi e.symm
            · exact hi e) _ h1
    · intro i G' hG'
      rw [hgroups] at hG'
      rcases getElem?_split hG' with ⟨_, rfl⟩ | ⟨_, G0, h1, h2⟩
      · exact ⟨(h.nodup g G hG).2, List.nodup_nil⟩
      · have := h.nodup i G0 h1
        by_cases hgi : g = i
        · rw [if_pos hgi] at h2; subst h2; exact ⟨this.1, List.nodup_nil⟩
        · rw [if_neg hgi] at h2; subst h2; exact this
    · intro s hs
      rw [hof, hgroups]
      by_cases hsf : s ∈ G.fresh
      · rw [if_pos hsf]
        exact ⟨_, getElem?_split_new, .inl hsf⟩
      · rw [if_neg hsf]
        obtain ⟨G', h1, h2⟩ := h.mem s hs
        refine ⟨_, getElem?_split_old h1, ?_⟩
        by_cases hgi : g = H.groupOf s
        · rw [if_pos hgi]
          rw [← hgi, hG] at h1
          cases h1
          exact .inl (h2.resolve_right hsf)
        · rw [if_neg hgi]
          exact h2
    · intro i G' s hG' hs
      rw [hgroups] at hG'
      rw [hof]
      rcases getElem?_split hG' with ⟨rfl, rfl⟩ | ⟨hi, G0, h1, h2⟩
      · have hsf : s ∈ G.fresh := hs.elim id (fun h => by cases h)
        rw [if_pos hsf]
        exact ⟨(hfr s hsf).1, rfl⟩
      · by_cases hgi : g = i
        · subst hgi
          rw [hG] at h1
          cases h1
          rw [if_pos rfl] at h2
          subst h2
          have hss : s ∈ G.states := hs.elim id (fun h => by cases h)
          rw [if_neg (fun hsf => hw2 s hss (hw3 s hsf))]
          exact h.only g G s hG (.inl hss)
        · rw [if_neg hgi] at h2
          subst h2
          obtain ⟨h3, h4⟩ := h.only i _ s h1 hs
          rw [if_neg (fun hsf => hgi ((hfr s hsf).2.symm.trans h4))]
          exact ⟨h3, h4⟩
  · refine ⟨?_, ?_, ?_, ?_, ?_, ?_⟩
    · intro s hs t ht he
      rw [hof, hof] at he
      by_cases h1 : s ∈ G.fresh
      · by_cases h2 : t ∈ G.fresh
        · exact (hfr s h1).2.trans (hfr t h2).2.symm
        · rw [if_pos h1, if_neg h2] at he
          exact absurd (hVlow t ht) (by omega)
      · by_cases h2 : t ∈ G.fresh
        · rw [if_neg h1, if_pos h2] at he
          exact absurd (hVlow s hs) (by omega)
        · rwa [if_neg h1, if_neg h2] at he
    · intro s hs t ht he hS
      rw [hof, hof]
      have : ∀ s ∈ V, ∀ t ∈ V, H.groupOf s = H.groupOf t → (S s ↔ S t) → s ∈ G.fresh → t ∈ G.fresh := by
        intro s hs t ht he hS hsf
        obtain ⟨G', h1, h2⟩ := h.mem t ht
        rw [← he, (hfr s hsf).2, hG] at h1
        cases h1
        exact h2.resolve_left (fun hst => hw2 t hst (hS.1 (hw3 s hsf)))
      by_cases h1 : s ∈ G.fresh
      · rw [if_pos h1, if_pos (this s hs t ht he hS h1)]
      · rw [if_neg h1, if_neg (fun h2 => h1 (this t ht s hs he.symm hS.symm h2))]
        exact he
    · intro s hs ho
      rw [hof]
      by_cases h1 : s ∈ G.fresh
      · rw [if_pos h1]
        rw [(hfr s h1).2] at ho
        exact (hboth ho).2
      · rw [if_neg h1]
        by_cases h2 : H.groupOf s = g
        · rw [h2] at ho ⊢
          exact (hboth ho).1
        · exact hkeep _ h2 ho
    · intro s hs t ht he hne
      rw [hof, hof] at hne ⊢
      by_cases h1 : s ∈ G.fresh
      · by_cases h2 : t ∈ G.fresh
        · rw [if_pos h1, if_pos h2] at hne; exact absurd rfl hne
        · rw [if_pos h1, if_neg h2, ← he, (hfr s h1).2]
          exact hadd.symm
      · by_cases h2 : t ∈ G.fresh
        · rw [if_neg h1, if_pos h2, he, (hfr t h2).2]
          exact hadd
        · rw [if_neg h1, if_neg h2] at hne; exact absurd he hne
    · rw [hgroups, List.length_append, List.length_modify]
      omega
    · rw [hgroups, List.length_append, List.length_modify, hag]
      simp only [List.length_cons, List.length_nil]
      split
      · next ho =>
        have := length_erase (onAgenda_iff.1 ho)
        rw [length_addAgenda, length_addAgenda]
        omega
      · split
        · rw [length_addAgenda]; omega
        · rw [length_addAgenda]; omega

/-- Keeping a group whose states are all among the sources. -/
theorem merge_step {V : List Nat} {S : Nat → Prop} {H : Hop} {g : Nat} {T : List Nat}
    (h : Mid V S H (g :: T)) {G : HGroup} (hG : H.groups[g]? = some G) (hst : G.states = []) :
    Mid V S { H with groups := H.groups.modify g HGroup.merge } T ∧
      Finer V S H { H with groups := H.groups.modify g HGroup.merge } := by
  obtain ⟨hgT, hT⟩ := List.nodup_cons.1 h.tnodup
  obtain ⟨hw1, hw2, hw3⟩ := h.work g (List.mem_cons_self ..) G hG
  have hmerge : G.merge = ⟨G.fresh, []⟩ := by
    unfold HGroup.merge; rw [hst]
  have hget : ∀ i G', (H.groups.modify g HGroup.merge)[i]? = some G' →
      ∃ G0, H.groups[i]? = some G0 ∧ (g = i → G' = ⟨G.fresh, []⟩ ∧ G0 = G) ∧ (g ≠ i → G' = G0) := by
    intro i G' hG'
    rw [List.getElem?_modify] at hG'
    cases h0 : H.groups[i]? with
    | none => rw [h0] at hG'; cases hG'
    | some G0 =>
      rw [h0] at hG'
      refine ⟨G0, rfl, fun hg => ?_, fun hg => ?_⟩
      · subst hg
        rw [hG] at h0
        cases h0
        simp [hmerge] at hG'
        exact ⟨hG'.symm, rfl⟩
      · simp [hg] at hG'
        exact hG'.symm
  constructor
  · refine ⟨hT, ?_, ?_, ?_, ?_, ?_, ?_⟩
    · intro i hi
      show i < (H.groups.modify g HGroup.merge).length
      rw [List.length_modify]
      exact h.tlow i (List.mem_cons_of_mem _ hi)
    · intro i hi G' hG'
      obtain ⟨G0, h0, _, h2⟩ := hget i G' hG'
      rw [h2 (fun e => hgT (e ▸ hi))]
      exact h.work i (List.mem_cons_of_mem _ hi) _ h0
    · intro i hi G' hG'
      obtain ⟨G0, h0, h1, h2⟩ := hget i G' hG'
      by_cases hgi : g = i
      · rw [(h1 hgi).1]
        exact ⟨rfl, hw1, fun s hs t ht => ⟨fun _ => hw3 t ht, fun _ => hw3 s hs⟩⟩
      · rw [h2 hgi]
        exact h.idle i (fun hm => by
            rcases List.mem_cons.1 hm with e | e
            · exact hgi e.symm
            · exact hi e) _ h0
    · intro i G' hG'
      obtain ⟨G0, h0, h1, h2⟩ := hget i G' hG'
      by_cases hgi : g = i
      · rw [(h1 hgi).1]
        exact ⟨(h.nodup g G hG).2, List.nodup_nil⟩
      · rw [h2 hgi]
        exact h.nodup i G0 h0
    · intro s hs
      obtain ⟨G', h1, h2⟩ := h.mem s hs
      show ∃ G, (H.groups.modify g HGroup.merge)[H.groupOf s]? = some G ∧ _
      rw [List.getElem?_modify, h1]
      by_cases hgi : g = H.groupOf s
      · rw [← hgi, hG] at h1
        cases h1
        refine ⟨⟨G.fresh, []⟩, by simp [hgi, hmerge], .inl (h2.resolve_left (fun h => ?_))⟩
        rw [hst] at h
        cases h
      · exact ⟨G', by simp [hgi], h2⟩
    · intro i G' s hG' hs
      obtain ⟨G0, h0, h1, h2⟩ := hget i G' hG'
      by_cases hgi : g = i
      · rw [(h1 hgi).1] at hs
        have := h.only g G s hG (.inr (hs.elim id (fun h => by cases h)))
        exact ⟨this.1, this.2.trans hgi⟩
      · rw [h2 hgi] at hs
        exact h.only i G0 s h0 hs
  · refine ⟨fun _ _ _ _ h => h, fun _ _ _ _ h _ => h, fun _ _ h => h, fun _ _ _ _ h h' => absurd h h', ?_, ?_⟩
    · show H.groups.length ≤ (H.groups.modify g HGroup.merge).length
      rw [List.length_modify]
      exact Nat.le_refl _
    · show _ ≤ H.agenda.length + (H.groups.modify g HGroup.merge).length
      rw [List.length_modify]
      exact Nat.le_refl _

theorem finish_step {V : List Nat} {S : Nat → Prop} {H : Hop} {g : Nat} {T : List Nat}
    (h : Mid V S H (g :: T)) : Mid V S (H.finish g) T ∧ Finer V S H (H.finish g) := by
  have hglt := h.tlow g (List.mem_cons_self ..)
  have hG : H.groups[g]? = some H.groups[g] := List.getElem?_eq_getElem hglt
  unfold Hop.finish
  rw [hG]
  by_cases hst : H.groups[g].states = []
  · rw [if_neg (by simp [hst])]
    exact merge_step h hG hst
  · rw [if_pos (by simpa using List.length_pos_iff.2 hst)]
    exact split_step h hG hst

theorem finish_all {V : List Nat} {S : Nat → Prop} (T : List Nat) :
    ∀ {H : Hop}, Mid V S H T → Mid V S (T.foldl Hop.finish H) [] ∧ Finer V S H (T.foldl Hop.finish H) := by
  induction T with
  | nil => exact fun h => ⟨h, .refl _⟩
  | cons g T ih =>
    intro H h
    obtain ⟨h1, h2⟩ := finish_step h
    obtain ⟨h3, h4⟩ := ih h1
    exact ⟨h3, h2.trans h4⟩

/-- The groups while the sources `P` have been moved. -/
structure Moved (H0 : Hop) (P : List Nat) (H : Hop) (T : List Nat) : Prop where
  of : H.groupOf = H0.groupOf
  agenda : H.agenda = H0.agenda
  length : H.groups.length = H0.groups.length
  groups : ∀ (i : Nat) (G : HGroup), H.groups[i]? = some G → ∃ G0 : HGroup, H0.groups[i]? = some G0 ∧
    (∀ s, s ∈ G.states ↔ s ∈ G0.states ∧ s ∉ P) ∧ (∀ s, s ∈ G.fresh ↔ s ∈ G0.states ∧ s ∈ P) ∧
    G.states.Nodup ∧ G.fresh.Nodup
  tnodup : T.Nodup
  touched : ∀ i, i ∈ T ↔ ∃ s ∈ P, H0.groupOf s = i

theorem moved_step {V : List Nat} {H0 : Hop} (h0 : HGood V H0) {P : List Nat} (hP : ∀ s ∈ P, s ∈ V)
    {H : Hop} {T : List Nat} (h : Moved H0 P H T) {x : Nat} (hx : x ∈ V) (hxP : x ∉ P) :
    Moved H0 (x :: P) (H.move x)
      (if (H.groups[H.groupOf x]?.map (fun G => G.fresh.isEmpty)).getD false = true then H.groupOf x :: T
        else T) := by
  obtain ⟨G0, hG0, hx0⟩ := h0.mem x hx
  have hxlt : H0.groupOf x < H.groups.length := by
    rw [h.length]
    by_cases hlt : H0.groupOf x < H0.groups.length
    · exact hlt
    · rw [List.getElem?_eq_none (by omega)] at hG0; cases hG0
  have hG : H.groups[H0.groupOf x]? = some (H.groups[H0.groupOf x]'hxlt) := List.getElem?_eq_getElem hxlt
  generalize H.groups[H0.groupOf x]'hxlt = G at hG
  obtain ⟨G0', hG0', hs, hf, hn1, hn2⟩ := h.groups _ G hG
  rw [hG0] at hG0'
  cases hG0'
  have hempty : G.fresh = [] ↔ H0.groupOf x ∉ T := by
    rw [h.touched]
    constructor
    · rintro he ⟨s, hsP, hso⟩
      obtain ⟨G1, h1, h2⟩ := h0.mem s (hP s hsP)
      rw [hso, hG0] at h1
      cases h1
      have := (hf s).2 ⟨h2, hsP⟩
      rw [he] at this
      cases this
    · intro hno
      cases hfr : G.fresh with
      | nil => rfl
      | cons s ss =>
        have hs' : s ∈ G.fresh := by rw [hfr]; exact List.mem_cons_self ..
        obtain ⟨h1, h2⟩ := (hf s).1 hs'
        exact absurd ⟨s, h2, (h0.only _ G0 s hG0 h1).2⟩ hno
  refine ⟨h.of, h.agenda, ?_, ?_, ?_, ?_⟩
  · show (H.groups.modify _ _).length = _
    rw [List.length_modify]
    exact h.length
  · intro i G' hG'
    have hG2 : (H.groups.modify (H.groupOf x) fun G => ⟨G.states.erase x, linkIn x G.fresh⟩)[i]? = some G' := hG'
    rw [List.getElem?_modify, h.of] at hG2
    by_cases hi : H0.groupOf x = i
    · subst hi
      rw [hG] at hG2
      simp at hG2
      subst hG2
      refine ⟨G0, hG0, fun s => ?_, fun s => ?_, hn1.erase _, nodup_linkIn hn2 (fun h => hxP ((hf x).1 h).2)⟩
      · show s ∈ G.states.erase x ↔ _
        rw [hn1.mem_erase_iff, hs, List.mem_cons]
        constructor
        · rintro ⟨h1, h2, h3⟩
          exact ⟨h2, fun h => h.elim h1 h3⟩
        · rintro ⟨h1, h2⟩
          exact ⟨fun h => h2 (.inl h), h1, fun h => h2 (.inr h)⟩
      · show s ∈ linkIn x G.fresh ↔ _
        rw [mem_linkIn, hf, List.mem_cons]
        constructor
        · rintro (rfl | ⟨h1, h2⟩)
          · exact ⟨hx0, .inl rfl⟩
          · exact ⟨h1, .inr h2⟩
        · rintro ⟨h1, h2 | h2⟩
          · exact .inl h2
          · exact .inr ⟨h1, h2⟩
    · cases hGi : H.groups[i]? with
      | none => rw [hGi] at hG2; cases hG2
      | some G1 =>
        rw [hGi] at hG2
        simp [hi] at hG2
        subst hG2
        obtain ⟨G2, h1, h2, h3, h4, h5⟩ := h.groups i G1 hGi
        have hne : ∀ s ∈ G2.states, s ≠ x := fun s hs' he => hi (he ▸ (h0.only i G2 s h1 hs').2)
        refine ⟨G2, h1, fun s => ?_, fun s => ?_, h4, h5⟩
        · rw [h2, List.mem_cons]
          exact and_congr_right (fun hs' => not_congr ⟨.inr, fun h => h.resolve_left (hne s hs')⟩)
        · rw [h3, List.mem_cons]
          exact and_congr_right (fun hs' => ⟨.inr, fun h => h.resolve_left (hne s hs')⟩)
  · rw [h.of, hG]
    split
    · next he =>
      refine List.nodup_cons.2 ⟨?_, h.tnodup⟩
      rw [← hempty]
      simpa using he
    · exact h.tnodup
  · intro i
    rw [h.of, hG]
    have hcons : (∃ s ∈ x :: P, H0.groupOf s = i) ↔ H0.groupOf x = i ∨ i ∈ T := by
      rw [h.touched]
      constructor
      · rintro ⟨s, hs', hso⟩
        rcases List.mem_cons.1 hs' with rfl | hs'
        · exact .inl hso
        · exact .inr ⟨s, hs', hso⟩
      · rintro (he | ⟨s, hs', hso⟩)
        · exact ⟨x, List.mem_cons_self .., he⟩
        · exact ⟨s, List.mem_cons_of_mem _ hs', hso⟩
    rw [hcons]
    split
    · rw [List.mem_cons, eq_comm]
    · next he =>
      have hin : H0.groupOf x ∈ T := by
        refine Classical.byContradiction fun hno => he ?_
        simpa using hempty.2 hno
      constructor
      · exact .inr
      · rintro (rfl | h)
        · exact hin
        · exact h

theorem moveAll_moved {V : List Nat} {H0 : Hop} (h0 : HGood V H0) (S : List Nat) :
    ∀ {P : List Nat} {H : Hop} {T : List Nat}, (∀ s ∈ P, s ∈ V) → Moved H0 P H T → (∀ s ∈ S, s ∈ V) → S.Nodup →
      (∀ s ∈ S, s ∉ P) →
      Moved H0 (S.reverse ++ P)
        (S.foldl (fun s x => (s.1.move x,
          if (s.1.groups[s.1.groupOf x]?.map (fun G => G.fresh.isEmpty)).getD false = true then
            s.1.groupOf x :: s.2 else s.2)) (H, T)).1
        (S.foldl (fun s x => (s.1.move x,
          if (s.1.groups[s.1.groupOf x]?.map (fun G => G.fresh.isEmpty)).getD false = true then
            s.1.groupOf x :: s.2 else s.2)) (H, T)).2 := by
  induction S with
  | nil => exact fun _ h _ _ _ => h
  | cons x S ih =>
    intro P H T hP h hS hn hd
    obtain ⟨hx, hn⟩ := List.nodup_cons.1 hn
    have := ih (P := x :: P) (fun s hs => by
        rcases List.mem_cons.1 hs with rfl | hs
        · exact hS _ (List.mem_cons_self ..)
        · exact hP s hs)
      (moved_step h0 hP h (hS x (List.mem_cons_self ..)) (hd x (List.mem_cons_self ..)))
      (fun s hs => hS s (List.mem_cons_of_mem _ hs)) hn (fun s hs hm => by
        rcases List.mem_cons.1 hm with rfl | hm
        · exact hx hs
        · exact hd s (List.mem_cons_of_mem _ hs) hm)
    rw [List.reverse_cons, List.append_assoc]
    exact this

/-- **What processing the sources of one label does.** -/
theorem process_ok {V : List Nat} {H : Hop} (h : HGood V H) {S : List Nat} (hS : ∀ s ∈ S, s ∈ V) (hn : S.Nodup) :
    HGood V (H.process S) ∧ Finer V (fun s => s ∈ S) H (H.process S) ∧
      ∀ s ∈ V, ∀ t ∈ V, (H.process S).groupOf s = (H.process S).groupOf t → (s ∈ S ↔ t ∈ S) := by
  have hm0 : Moved H [] H [] := ⟨rfl, rfl, rfl, fun i G hG => ⟨G, hG, fun s => by simp, fun s => by
      rw [h.fresh i G hG]; simp, h.nodup i G hG, by rw [h.fresh i G hG]; exact List.nodup_nil⟩,
    List.nodup_nil, fun i => by simp⟩
  have hm := moveAll_moved h S (fun s hs => by cases hs) hm0 hS hn (fun _ _ h => by cases h)
  rw [List.append_nil] at hm
  have hmid : Mid V (fun s => s ∈ S) (H.moveAll S).1 (H.moveAll S).2 := by
    change Moved H S.reverse (H.moveAll S).1 (H.moveAll S).2 at hm
    have htl : ∀ i ∈ (H.moveAll S).2, ∃ s ∈ S, H.groupOf s = i := fun i hi => by
      obtain ⟨s, hs, he⟩ := (hm.touched i).1 hi
      exact ⟨s, List.mem_reverse.1 hs, he⟩
    refine ⟨hm.tnodup, ?_, ?_, ?_, ?_, ?_, ?_⟩
    · intro i hi
      obtain ⟨s, hs, rfl⟩ := htl i hi
      obtain ⟨G, hG, _⟩ := h.mem s (hS s hs)
      rw [hm.length]
      by_cases hlt : H.groupOf s < H.groups.length
      · exact hlt
      · rw [List.getElem?_eq_none (by omega)] at hG; cases hG
    · intro i hi G hG
      obtain ⟨G0, h1, h2, h3, _⟩ := hm.groups i G hG
      refine ⟨?_, fun s hs => ?_, fun s hs => List.mem_reverse.1 ((h3 s).1 hs).2⟩
      · obtain ⟨s, hs, rfl⟩ := htl i hi
        obtain ⟨G1, h4, h5⟩ := h.mem s (hS s hs)
        rw [h1] at h4
        cases h4
        intro he
        have := (h3 s).2 ⟨h5, List.mem_reverse.2 hs⟩
        rw [he] at this
        cases this
      · exact fun h => ((h2 s).1 hs).2 (List.mem_reverse.2 h)
    · intro i hi G hG
      obtain ⟨G0, h1, h2, h3, _⟩ := hm.groups i G hG
      have hnot : ∀ s ∈ G0.states, s ∉ S.reverse := fun s hs hr =>
        hi ((hm.touched i).2 ⟨s, hr, (h.only i G0 s h1 hs).2⟩)
      refine ⟨?_, ?_, fun s hs t ht => ?_⟩
      · cases hf : G.fresh with
        | nil => rfl
        | cons s ss =>
          have : s ∈ G.fresh := by rw [hf]; exact List.mem_cons_self ..
          obtain ⟨h4, h5⟩ := (h3 s).1 this
          exact absurd h5 (hnot s h4)
      · obtain ⟨s, hs⟩ := List.exists_mem_of_ne_nil _ (h.full i G0 h1)
        intro he
        have := (h2 s).2 ⟨hs, hnot s hs⟩
        rw [he] at this
        cases this
      · have h5 := ((h2 s).1 hs).2
        have h6 := ((h2 t).1 ht).2
        rw [List.mem_reverse] at h5 h6
        exact ⟨fun h => absurd h h5, fun h => absurd h h6⟩
    · intro i G hG
      obtain ⟨_, _, _, _, h4⟩ := hm.groups i G hG
      exact h4
    · intro s hs
      obtain ⟨G0, h1, h2⟩ := h.mem s hs
      have hlt : H.groupOf s < (H.moveAll S).1.groups.length := by
        rw [hm.length]
        by_cases hlt : H.groupOf s < H.groups.length
        · exact hlt
        · rw [List.getElem?_eq_none (by omega)] at h1; cases h1
      have hG : (H.moveAll S).1.groups[H.groupOf s]? = some _ := List.getElem?_eq_getElem hlt
      obtain ⟨G1, h3, h4, h5, _⟩ := hm.groups _ _ hG
      rw [h1] at h3
      cases h3
      refine ⟨_, by rw [hm.of]; exact hG, ?_⟩
      by_cases hsS : s ∈ S.reverse
      · exact .inr ((h5 s).2 ⟨h2, hsS⟩)
      · exact .inl ((h4 s).2 ⟨h2, hsS⟩)
    · intro i G s hG hs
      obtain ⟨G0, h1, h2, h3, _⟩ := hm.groups i G hG
      rw [hm.of]
      exact h.only i G0 s h1 (hs.elim (fun h => ((h2 s).1 h).1) (fun h => ((h3 s).1 h).1))
  obtain ⟨hend, hfin⟩ := finish_all _ hmid
  have hidle := fun i => hend.idle i (fun h => by cases h)
  refine ⟨⟨fun i G hG => (hidle i G hG).1, fun i G hG => (hidle i G hG).2.1, fun i G hG => (hend.nodup i G hG).1,
    fun s hs => ?_, fun i G s hG hs => hend.only i G s hG (.inl hs)⟩, ?_, fun s hs t ht he => ?_⟩
  · obtain ⟨G, hG, hs'⟩ := hend.mem s hs
    refine ⟨G, hG, hs'.resolve_right (fun h => ?_)⟩
    rw [(hidle _ G hG).1] at h
    cases h
  · change Moved H S.reverse (H.moveAll S).1 (H.moveAll S).2 at hm
    have e1 := hm.of
    have e2 := hm.agenda
    have e3 := hm.length
    refine ⟨fun s hs t ht he => ?_, fun s hs t ht he => hfin.coarse s hs t ht (by rw [e1]; exact he), ?_, ?_, ?_, ?_⟩
    · have := hfin.fine s hs t ht he
      rwa [e1] at this
    · intro s hs ho
      exact hfin.stay s hs (by rw [e1, e2]; exact ho)
    · intro s hs t ht he
      exact hfin.half s hs t ht (by rw [e1]; exact he)
    · have := hfin.grow
      rwa [e3] at this
    · have := hfin.len
      rwa [e2, e3] at this
  · have hsG : ∀ s ∈ V, ∃ G, (H.process S).groups[(H.process S).groupOf s]? = some G ∧ s ∈ G.states := by
      intro s hs
      obtain ⟨G, hG, hs'⟩ := hend.mem s hs
      refine ⟨G, hG, hs'.resolve_right (fun h => ?_)⟩
      rw [(hidle _ G hG).1] at h
      cases h
    obtain ⟨G1, h1, h2⟩ := hsG s hs
    obtain ⟨G2, h3, h4⟩ := hsG t ht
    rw [← he, h1] at h3
    cases h3
    exact (hidle _ _ h1).2.2 s h2 t h4

end Hfst.Sfst
