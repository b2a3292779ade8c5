import Verif.Props.SfstCmp

/-!
# C70: adding single paths to a transducer in the SFST back-end
-/

namespace Hfst.Sfst

theorem said_cons (l : Label) (p : List Label) :
    said (l :: p) = if l = ⟨0, 0⟩ then said p else l :: said p := by
  unfold said
  by_cases h : l = ⟨0, 0⟩
  · rw [if_pos h, List.filter_cons_of_neg (by simp [h])]
  · rw [if_neg h, List.filter_cons_of_pos (by simp [h])]

theorem path_last {g : Graph} {n e : Nat} {u : List Label} (h : g.Path n u e) :
    (e = n ∧ u = []) ∨ ∃ p l v, g.Path n v p ∧ g.Step p l e ∧ u = v ++ said [l] := by
  induction h with
  | nil => exact .inl ⟨rfl, rfl⟩
  | @skip n m e w hs _ ih =>
    rcases ih with ⟨rfl, rfl⟩ | ⟨p, l, v, h1, h2, h3⟩
    · exact .inr ⟨n, ⟨0, 0⟩, [], .nil, hs, rfl⟩
    · exact .inr ⟨p, l, v, .skip hs h1, h2, h3⟩
  | @read n m e x w hx hs _ ih =>
    rcases ih with ⟨rfl, rfl⟩ | ⟨p, l, v, h1, h2, rfl⟩
    · refine .inr ⟨n, x, [], .nil, hs, ?_⟩
      rw [said_cons, if_neg hx]
      rfl
    · exact .inr ⟨p, l, x :: v, .read hx hs h1, h2, rfl⟩

/-- In a tree only one sequence leads to a node. -/
theorem path_unique {g : Graph} (hg : g.Tree) (e : Nat) : ∀ {u v : List Label}, g.Path 0 u e → g.Path 0 v e → u = v := by
  induction e using Nat.strongRecOn with
  | ind e ih =>
    intro u v hu hv
    have hlt : ∀ {p v}, g.Path 0 v p → p < g.size := fun h => hg.1.reach h.reach hg.1.1
    rcases path_last hu with ⟨h1, h2⟩ | ⟨p, l, u', h1, h2, h3⟩
    · rcases path_last hv with ⟨_, h2'⟩ | ⟨p', l', v', h1', h2', _⟩
      · rw [h2, h2']
      · have := hg.2.1 p' (hlt h1') _ h2'
        rw [h1] at this
        exact absurd this (Nat.not_lt_zero _)
    · rcases path_last hv with ⟨h1', _⟩ | ⟨p', l', v', h1', h2', h3'⟩
      · have := hg.2.1 p (hlt h1) _ h2
        rw [h1'] at this
        exact absurd this (Nat.not_lt_zero _)
      · obtain ⟨e1, e2⟩ := hg.2.2 p (hlt h1) _ h2 p' (hlt h1') _ h2' rfl
        dsimp only at e2
        subst e1
        subst e2
        rw [h3, h3', ih p (hg.2.1 p (hlt h1) _ h2) h1 h1']

/-- How a transducer grows while a path is added. -/
structure Grows (g g' : Graph) : Prop where
  tree : g'.Tree
  size : g.size ≤ g'.size
  final : ∀ k, k < g.size → (g'.node k).final = (g.node k).final
  step : ∀ k l m, k < g.size → g.Step k l m → g'.Step k l m
  takes : ∀ k w, k < g.size → (g'.Takes k w ↔ g.Takes k w)

theorem Grows.refl {g : Graph} (h : g.Tree) : Grows g g :=
  ⟨h, Nat.le_refl _, fun _ _ => rfl, fun _ _ _ _ h => h, fun _ _ _ => Iff.rfl⟩

theorem Grows.trans {g g' g'' : Graph} (h : Grows g g') (h' : Grows g' g'') : Grows g g'' :=
  ⟨h'.tree, Nat.le_trans h.size h'.size,
    fun k hk => (h'.final k (Nat.lt_of_lt_of_le hk h.size)).trans (h.final k hk),
    fun k l m hk hs => h'.step k l m (Nat.lt_of_lt_of_le hk h.size) (h.step k l m hk hs),
    fun k w hk => (h'.takes k w (Nat.lt_of_lt_of_le hk h.size)).trans (h.takes k w hk)⟩

theorem Grows.path {g g' : Graph} (h : Grows g g') (hg : g.Closed) {n m : Nat} {u : List Label} (hp : g.Path n u m) :
    n < g.size → g'.Path n u m := by
  induction hp with
  | nil => exact fun _ => .nil
  | skip hs _ ih => exact fun hn => .skip (h.step _ _ _ hn hs) (ih (hg.2 _ hn _ hs))
  | read hl hs _ ih => exact fun hn => .read hl (h.step _ _ _ hn hs) (ih (hg.2 _ hn _ hs))

/-- A new leaf. -/
theorem grow_leaf {g : Graph} (hg : g.Tree) {n : Nat} (hn : n < g.size) (l : Label) :
    Grows g (g.newNode.addArc n l g.size) ∧ (g.newNode.addArc n l g.size).size = g.size + 1 ∧
      (g.newNode.addArc n l g.size).Step n l g.size := by
  have hold : ∀ k, k < g.size → k ≠ n → (g.newNode.addArc n l g.size).node k = g.node k := by
    intro k hk hkn
    show (if k = n then _ else (if k = g.size then _ else _)) = _
    rw [if_neg hkn, if_neg (Nat.ne_of_lt hk)]
  have hnn : (g.newNode.addArc n l g.size).node n = ⟨(l, g.size) :: (g.node n).arcs, (g.node n).final⟩ := by
    show (if n = n then (fun nd : Node => { nd with arcs := (l, g.size) :: nd.arcs })
      (if n = g.size then _ else _) else _) = _
    rw [if_pos rfl, if_neg (Nat.ne_of_lt hn)]
  have hnew : (g.newNode.addArc n l g.size).node g.size = Node.init := by
    show (if g.size = n then _ else (if g.size = g.size then _ else _)) = _
    rw [if_neg (Nat.ne_of_gt hn), if_pos rfl]
  have hsz : (g.newNode.addArc n l g.size).size = g.size + 1 := rfl
  generalize g.newNode.addArc n l g.size = g' at hold hnn hnew hsz
  have harc : ∀ k, k < g'.size → ∀ a, a ∈ (g'.node k).arcs ↔
      (k < g.size ∧ a ∈ (g.node k).arcs) ∨ (k = n ∧ a = (l, g.size)) := by
    intro k hk a
    rw [hsz] at hk
    rcases Nat.lt_succ_iff_lt_or_eq.1 hk with h | rfl
    · by_cases hkn : k = n
      · subst hkn
        rw [hnn, List.mem_cons]
        constructor
        · rintro (h' | h')
          · exact .inr ⟨rfl, h'⟩
          · exact .inl ⟨h, h'⟩
        · rintro (⟨_, h'⟩ | ⟨_, h'⟩)
          · exact .inr h'
          · exact .inl h'
      · rw [hold k h hkn]
        constructor
        · exact fun h' => .inl ⟨h, h'⟩
        · rintro (⟨_, h'⟩ | ⟨h', _⟩)
          · exact h'
          · exact absurd h' hkn
    · rw [hnew]
      constructor
      · intro h; cases h
      · rintro (⟨h, _⟩ | ⟨h, _⟩)
        · exact absurd h (Nat.lt_irrefl _)
        · exact absurd h (Nat.ne_of_gt hn)
  have hleaf : ∀ w, ¬ g'.Takes g.size w := by
    intro w h
    cases h with
    | stop hf => rw [hnew] at hf; cases hf
    | skip hs _ => unfold Graph.Step at hs; rw [hnew] at hs; cases hs
    | read _ hs _ => unfold Graph.Step at hs; rw [hnew] at hs; cases hs
  have hfin : ∀ k, k < g.size → (g'.node k).final = (g.node k).final := by
    intro k hk
    by_cases hkn : k = n
    · subst hkn; rw [hnn]
    · rw [hold k hk hkn]
  have hup : ∀ k l m, k < g.size → g.Step k l m → g'.Step k l m := fun k x m hk hs =>
    (harc k (by rw [hsz]; exact Nat.lt_succ_of_lt hk) _).2 (.inl ⟨hk, hs⟩)
  have hdown : ∀ k x m, k < g.size → g'.Step k x m → m ≠ g.size → g.Step k x m := by
    intro k x m hk hs hm
    rcases (harc k (by rw [hsz]; exact Nat.lt_succ_of_lt hk) _).1 hs with ⟨_, h⟩ | ⟨_, h⟩
    · exact h
    · cases h; exact absurd rfl hm
  refine ⟨⟨⟨⟨by rw [hsz]; exact Nat.succ_pos _, fun k hk a ha => ?_⟩, fun k hk a ha => ?_,
    fun k hk a ha k' hk' a' ha' he => ?_⟩, by rw [hsz]; exact Nat.le_succ _, hfin, hup, fun k w hk => ⟨?_, ?_⟩⟩, hsz, ?_⟩
  · rw [hsz]
    rcases (harc k hk a).1 ha with ⟨h1, h2⟩ | ⟨_, rfl⟩
    · exact Nat.lt_succ_of_lt (hg.1.2 k h1 a h2)
    · exact Nat.lt_succ_self _
  · rcases (harc k hk a).1 ha with ⟨h1, h2⟩ | ⟨rfl, rfl⟩
    · exact hg.2.1 k h1 a h2
    · exact hn
  · rcases (harc k hk a).1 ha with ⟨h1, h2⟩ | ⟨h1, h2⟩
    · rcases (harc k' hk' a').1 ha' with ⟨h1', h2'⟩ | ⟨h1', h2'⟩
      · exact hg.2.2 k h1 a h2 k' h1' a' h2' he
      · have := hg.1.2 k h1 a h2
        rw [he, h2'] at this
        exact absurd this (Nat.lt_irrefl _)
    · rcases (harc k' hk' a').1 ha' with ⟨h1', h2'⟩ | ⟨h1', h2'⟩
      · have := hg.1.2 k' h1' a' h2'
        rw [← he, h2] at this
        exact absurd this (Nat.lt_irrefl _)
      · rw [h1, h1', h2, h2']
        exact ⟨rfl, rfl⟩
  · intro h
    induction h with
    | stop hf => exact .stop (by rw [← hfin _ hk]; exact hf)
    | @skip k m w hs hm ih =>
      have hne : m ≠ g.size := fun e => hleaf _ (e ▸ hm)
      have hs' := hdown _ _ _ hk hs hne
      exact .skip hs' (ih (hg.1.2 _ hk _ hs'))
    | @read k m x w hx hs hm ih =>
      have hne : m ≠ g.size := fun e => hleaf _ (e ▸ hm)
      have hs' := hdown _ _ _ hk hs hne
      exact .read hx hs' (ih (hg.1.2 _ hk _ hs'))
  · intro h
    induction h with
    | stop hf => exact .stop (by rw [hfin _ hk]; exact hf)
    | skip hs _ ih => exact .skip (hup _ _ _ hk hs) (ih (hg.1.2 _ hk _ hs))
    | read hx hs _ ih => exact .read hx (hup _ _ _ hk hs) (ih (hg.1.2 _ hk _ hs))
  · exact (harc n (by rw [hsz]; exact Nat.lt_succ_of_lt hn) _).2 (.inr ⟨rfl, rfl⟩)

theorem path_snoc {g : Graph} {n m k : Nat} {u : List Label} {l : Label} (h : g.Path n u m) (hs : g.Step m l k) :
    g.Path n (u ++ said [l]) k := by
  refine h.trans ?_
  rw [said_cons]
  by_cases hl : l = ⟨0, 0⟩
  · rw [if_pos hl]
    subst hl
    exact .skip hs .nil
  · rw [if_neg hl]
    exact .read hl hs .nil

theorem walk_ok (p : List Label) : ∀ {g : Graph} {n : Nat} {u : List Label}, g.Tree → n < g.size → g.Path 0 u n →
    Grows g (walkPath p (n, g)).2 ∧ (walkPath p (n, g)).1 < (walkPath p (n, g)).2.size ∧
      (walkPath p (n, g)).2.Path 0 (u ++ said p) (walkPath p (n, g)).1 := by
  induction p with
  | nil =>
    intro g n u hg hn hu
    refine ⟨.refl hg, hn, ?_⟩
    show g.Path 0 (u ++ []) n
    rw [List.append_nil]
    exact hu
  | cons l p ih =>
    intro g n u hg hn hu
    have hsaid : u ++ said (l :: p) = (u ++ said [l]) ++ said p := by
      rw [said_cons, said_cons]
      by_cases hl : l = ⟨0, 0⟩
      · rw [if_pos hl, if_pos hl]; simp [said]
      · rw [if_neg hl, if_neg hl]; simp [said]
    rw [hsaid]
    unfold walkPath
    cases ht : (g.node n).target l with
    | some t =>
      dsimp only
      have hs : g.Step n l t := target_mem ht
      exact ih hg (hg.1.2 n hn _ hs) (path_snoc hu hs)
    | none =>
      dsimp only
      obtain ⟨hG, hsz, hs⟩ := grow_leaf hg hn l
      obtain ⟨h1, h2, h3⟩ := ih (n := g.size) hG.tree (by rw [hsz]; exact Nat.lt_succ_self _)
        (path_snoc (hG.path hg.1 hu hg.1.1) hs)
      exact ⟨hG.trans h1, h2, h3⟩

theorem setFinal_path {g : Graph} {e n m : Nat} {u : List Label} : (g.setFinal e true).Path n u m ↔ g.Path n u m := by
  have harcs : ∀ k, ((g.setFinal e true).node k).arcs = (g.node k).arcs := by
    intro k
    show (if k = e then _ else _ : Node).arcs = _
    split <;> rfl
  have hstep : ∀ k l m, (g.setFinal e true).Step k l m ↔ g.Step k l m := by
    intro k l m
    unfold Graph.Step
    rw [harcs]
  constructor
  · intro h
    induction h with
    | nil => exact .nil
    | skip hs _ ih => exact .skip ((hstep _ _ _).1 hs) ih
    | read hl hs _ ih => exact .read hl ((hstep _ _ _).1 hs) ih
  · intro h
    induction h with
    | nil => exact .nil
    | skip hs _ ih => exact .skip ((hstep _ _ _).2 hs) ih
    | read hl hs _ ih => exact .read hl ((hstep _ _ _).2 hs) ih

/-- **C70, adding a path to a tree** (`disjunct` with a path): the result is a tree and accepts what the
transducer accepted and the path, nothing else. -/
theorem C70_add_path_partial {F : Fst} (hF : F.graph.Tree) (p : List Label) :
    (F.addPath p).graph.Tree ∧ ∀ w, (F.addPath p).Takes w ↔ F.Takes w ∨ w = said p := by
  obtain ⟨hG, he, hp⟩ := walk_ok p hF hF.1.1 .nil
  unfold Fst.addPath Fst.Takes
  dsimp only
  generalize (walkPath p (0, F.graph)).2 = g at hG he hp
  generalize (walkPath p (0, F.graph)).1 = e at he hp
  have harcs : ∀ k, ((g.setFinal e true).node k).arcs = (g.node k).arcs := by
    intro k
    show (if k = e then _ else _ : Node).arcs = _
    split <;> rfl
  refine ⟨⟨⟨hG.tree.1.1, fun n hn a ha => hG.tree.1.2 n hn a (harcs n ▸ ha)⟩,
    fun n hn a ha => hG.tree.2.1 n hn a (harcs n ▸ ha),
    fun n hn a ha n' hn' a' ha' => hG.tree.2.2 n hn a (harcs n ▸ ha) n' hn' a' (harcs n' ▸ ha')⟩, fun w => ?_⟩
  rw [← hG.takes 0 w hF.1.1]
  have hfin : ∀ m, ((g.setFinal e true).node m).final = true ↔ (g.node m).final = true ∨ m = e := by
    intro m
    show (if m = e then _ else _ : Node).final = true ↔ _
    by_cases hm : m = e
    · rw [if_pos hm]; simp [hm]
    · rw [if_neg hm]; simp [hm]
  constructor
  · intro h
    obtain ⟨m, h1, h2⟩ := takes_iff_path.1 h
    rcases (hfin m).1 h2 with h2 | rfl
    · exact .inl (takes_iff_path.2 ⟨m, setFinal_path.1 h1, h2⟩)
    · exact .inr (path_unique hG.tree m (setFinal_path.1 h1) hp)
  · rintro (h | rfl)
    · obtain ⟨m, h1, h2⟩ := takes_iff_path.1 h
      exact takes_iff_path.2 ⟨m, setFinal_path.2 h1, (hfin m).2 (.inl h2)⟩
    · exact takes_iff_path.2 ⟨e, setFinal_path.2 hp, (hfin e).2 (.inr rfl)⟩

/-- **C70, a lexicon from its paths**: adding any number of paths, one by one, to the empty transducer gives a
transducer that accepts exactly these paths. -/
theorem C70_paths (ps : List (List Label)) (w : List Label) :
    (ps.foldl Fst.addPath (Fst.new false)).Takes w ↔ ∃ p ∈ ps, w = said p := by
  have key : ∀ (ps : List (List Label)) (F : Fst), F.graph.Tree →
      ∀ w, (ps.foldl Fst.addPath F).Takes w ↔ F.Takes w ∨ ∃ p ∈ ps, w = said p := by
    intro ps
    induction ps with
    | nil => intro F _ w; simp
    | cons p ps ih =>
      intro F hF w
      obtain ⟨h1, h2⟩ := C70_add_path_partial hF p
      rw [List.foldl_cons, ih _ h1, h2]
      constructor
      · rintro ((h | h) | ⟨q, hq, h⟩)
        · exact .inl h
        · exact .inr ⟨p, List.mem_cons_self .., h⟩
        · exact .inr ⟨q, List.mem_cons_of_mem _ hq, h⟩
      · rintro (h | ⟨q, hq, h⟩)
        · exact .inl (.inl h)
        · rcases List.mem_cons.1 hq with rfl | hq
          · exact .inl (.inr h)
          · exact .inr ⟨q, hq, h⟩
  rw [key ps (Fst.new false) ⟨⟨Nat.zero_lt_one, fun _ _ a ha => (by cases ha)⟩, fun _ _ a ha => (by cases ha),
    fun _ _ a ha => (by cases ha)⟩ w]
  constructor
  · rintro (h | h)
    · exact absurd h fresh_takes
    · exact h
  · exact .inr

/-- A case: three words, one the beginning of another. -/
example : ([[(⟨2, 2⟩ : Label), ⟨3, 3⟩], [⟨2, 2⟩], [⟨2, 5⟩, ⟨0, 0⟩, ⟨3, 3⟩]].foldl Fst.addPath (Fst.new false)).Takes
    [⟨2, 5⟩, ⟨3, 3⟩] :=
  (C70_paths _ _).2 ⟨[⟨2, 5⟩, ⟨0, 0⟩, ⟨3, 3⟩], by simp, by decide⟩

/-! ## Where it goes wrong -/

instance (g : Graph) : Decidable g.Tree :=
  inferInstanceAs (Decidable (g.Closed ∧ (∀ n, n < g.size → ∀ a ∈ (g.node n).arcs, n < a.2) ∧
    ∀ n, n < g.size → ∀ a ∈ (g.node n).arcs, ∀ n', n' < g.size → ∀ a' ∈ (g.node n').arcs,
      a.2 = a'.2 → n = n' ∧ a.1 = a'.1))

/-- ab and cb, with one node after a and c. -/
def shared : Fst :=
  ⟨.ofList [⟨[(⟨2, 2⟩, 1), (⟨4, 4⟩, 1)], false⟩, ⟨[(⟨3, 3⟩, 2)], false⟩, ⟨[], true⟩], true, false, []⟩

/-- **C70 fails for other transducers**: adding ad to the transducer of ab and cb also adds cd. -/
theorem C70_add_path_violated :
    ∃ (F : Fst) (p w : List Label), F.Honest ∧ ¬ F.Takes w ∧ w ≠ said p ∧ (F.addPath p).Takes w := by
  refine ⟨shared, [⟨2, 2⟩, ⟨5, 5⟩], [⟨4, 4⟩, ⟨5, 5⟩], ⟨by decide +kernel,
    fun _ => deterministic_of_check (by decide +kernel) (by decide +kernel), (by intro h; cases h)⟩, ?_, by decide, ?_⟩
  · intro h
    have h0 : ∀ {l m}, shared.graph.Step 0 l m → (l = ⟨2, 2⟩ ∨ l = ⟨4, 4⟩) ∧ m = 1 := by
      intro l m hs
      have : (l, m) ∈ [((⟨2, 2⟩ : Label), 1), (⟨4, 4⟩, 1)] := hs
      simp at this
      rcases this with ⟨rfl, rfl⟩ | ⟨rfl, rfl⟩
      · exact ⟨.inl rfl, rfl⟩
      · exact ⟨.inr rfl, rfl⟩
    have h1 : ∀ {l m}, shared.graph.Step 1 l m → l = ⟨3, 3⟩ := by
      intro l m hs
      have : (l, m) ∈ [((⟨3, 3⟩ : Label), 2)] := hs
      simp at this
      exact this.1
    cases h with
    | skip hs _ => rcases (h0 hs).1 with h | h <;> cases h
    | read _ hs h =>
      rw [(h0 hs).2] at h
      cases h with
      | skip hs _ => cases h1 hs
      | read _ hs _ => cases h1 hs
  · exact .read (k' := 1) (by decide) (by decide +kernel)
      (.read (k' := 3) (by decide) (by decide +kernel) (.stop (by decide +kernel)))

/-- The minimal transducer of a. -/
def minA : Fst := (oneA.hopcroftMinimise).getD oneA

/-- a and b. -/
def aOrB : Fst := ⟨.ofList [⟨[(⟨2, 2⟩, 1), (⟨3, 3⟩, 1)], false⟩, ⟨[], true⟩], false, false, []⟩

/-- **C70, the marks stay**: after a path has been added to a minimised transducer, even to a tree, the mark
"minimised" is still there but no longer right, and the comparison with a transducer that accepts the same
says no. -/
theorem C70_marks_violated :
    ∃ (F G : Fst) (p : List Label), F.Honest ∧ G.Honest ∧ F.graph.Tree ∧
      (∀ w, (F.addPath p).Takes w ↔ G.Takes w) ∧ (F.addPath p).equal G = some false ∧ ¬ (F.addPath p).Honest := by
  obtain ⟨R, h, hR, _, _, ht⟩ := C68_minimise oneA_honest
  have hRe : minA = R := by unfold minA; rw [h]; rfl
  have hG : aOrB.Honest := ⟨by decide +kernel, (by intro h; cases h), (by intro h; cases h)⟩
  have htree : minA.graph.Tree := by decide +kernel
  have hsame : ∀ w, (minA.addPath [⟨3, 3⟩]).Takes w ↔ aOrB.Takes w := by
    intro w
    rw [(C70_add_path_partial htree [⟨3, 3⟩]).2, hRe, ht]
    have hsaid : said [(⟨3, 3⟩ : Label)] = [⟨3, 3⟩] := by decide
    rw [hsaid]
    have h1 : ∀ {F : Fst} {n m} {l : Label} {w}, l ≠ ⟨0, 0⟩ → F.graph.Step n l m → (F.graph.node m).final = true →
        w = [l] → F.graph.Takes n w := by
      rintro F n m l w hl hs hf rfl
      exact .read hl hs (.stop hf)
    constructor
    · rintro (h | h)
      · have : w = [⟨2, 2⟩] := by
          have h0 : ∀ {l m}, oneA.graph.Step 0 l m → l = ⟨2, 2⟩ ∧ m = 1 := by
            intro l m hs
            have : (l, m) ∈ [((⟨2, 2⟩ : Label), 1)] := hs
            simpa using this
          have h2 : ∀ {l m}, ¬ oneA.graph.Step 1 l m := by
            intro l m hs
            have : (l, m) ∈ ([] : List (Label × Nat)) := hs
            cases this
          cases h with
          | stop hf => exact absurd hf (by decide +kernel)
          | skip hs _ => cases (h0 hs).1
          | read _ hs h =>
            obtain ⟨rfl, rfl⟩ := h0 hs
            cases h with
            | stop _ => rfl
            | skip hs _ => exact absurd hs h2
            | read _ hs _ => exact absurd hs h2
        exact h1 (m := 1) (by decide) (by decide +kernel) (by decide +kernel) this
      · exact h1 (m := 1) (by decide) (by decide +kernel) (by decide +kernel) h
    · intro h
      have h0 : ∀ {l m}, aOrB.graph.Step 0 l m → (l = ⟨2, 2⟩ ∨ l = ⟨3, 3⟩) ∧ m = 1 := by
        intro l m hs
        have : (l, m) ∈ [((⟨2, 2⟩ : Label), 1), (⟨3, 3⟩, 1)] := hs
        simp at this
        rcases this with ⟨rfl, rfl⟩ | ⟨rfl, rfl⟩
        · exact ⟨.inl rfl, rfl⟩
        · exact ⟨.inr rfl, rfl⟩
      have h2 : ∀ {l m}, ¬ aOrB.graph.Step 1 l m := by
        intro l m hs
        have : (l, m) ∈ ([] : List (Label × Nat)) := hs
        cases this
      cases h with
      | stop hf => exact absurd hf (by decide +kernel)
      | skip hs _ => rcases (h0 hs).1 with h | h <;> cases h
      | read _ hs h =>
        obtain ⟨hl, rfl⟩ := h0 hs
        cases h with
        | stop _ =>
          rcases hl with rfl | rfl
          · exact .inl (h1 (m := 1) (by decide) (by decide +kernel) (by decide +kernel) rfl)
          · exact .inr rfl
        | skip hs _ => exact absurd hs h2
        | read _ hs _ => exact absurd hs h2
  have heq : (minA.addPath [⟨3, 3⟩]).equal aOrB = some false := by decide +kernel
  refine ⟨minA, aOrB, [⟨3, 3⟩], hRe ▸ hR, hG, htree, hsame, heq, fun hh => ?_⟩
  obtain ⟨b, h2, h3⟩ := C69_equal hh hG
  rw [heq] at h2
  cases h2
  have := h3.2 hsame
  cases this

end Hfst.Sfst
