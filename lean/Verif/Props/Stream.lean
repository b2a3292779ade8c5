import Verif.Model.Stream
import Verif.Lemmas.Graph
import Mathlib.Data.List.Infix
import Mathlib.Tactic.SplitIfs
import Mathlib.Tactic.Tauto

/-!
# Headers of transducer streams: C44, C45, C46
-/
namespace Hfst.Stream
open Hfst.Basic

/-! ## Specification -/

/-- Pairs written one after the other, each text followed by a NUL. -/
def enc (l : List (Bytes × Bytes)) : Bytes := l.flatMap fun p => p.1 ++ 0 :: (p.2 ++ [0])

/-- No text of the pairs contains a NUL. -/
def NulFree (l : List (Bytes × Bytes)) : Prop := ∀ p ∈ l, (0 : Byte) ∉ p.1 ∧ (0 : Byte) ∉ p.2

/-- The value given last for a key. -/
def lastValue (l : List (Bytes × Bytes)) (k : Bytes) : Option Bytes := (l.reverse.find? (·.1 = k)).map (·.2)

/-- A stream that is neither at its end nor failed. -/
def good (r : Bytes) : In := ⟨r, false, false⟩

/-! ## Texts and pairs -/

theorem getStringGo_ok : ∀ (x r : Bytes), (0 : Byte) ∉ x → getStringGo (x ++ 0 :: r) = .ok (x, r)
  | [], r, _ => by simp [getStringGo]
  | b :: x, r, h => by
    have hb : b ≠ 0 := fun e => h (by simp [e])
    rw [List.cons_append, getStringGo, if_neg hb, getStringGo_ok x r fun e => h (by simp [e])]

theorem getStringGo_inv : ∀ (l x r : Bytes), getStringGo l = .ok (x, r) → l = x ++ 0 :: r ∧ (0 : Byte) ∉ x
  | [], x, r, h => by cases h
  | b :: l, x, r, h => by
    rw [getStringGo] at h
    split at h
    · rename_i hb
      cases h; subst hb; simp
    · rename_i hb
      split at h
      · rename_i s r' e
        cases h
        obtain ⟨h1, h2⟩ := getStringGo_inv l s r e
        refine ⟨by rw [h1]; rfl, ?_⟩
        simp only [List.mem_cons, not_or]
        exact ⟨fun e => hb e.symm, h2⟩
      · cases h
      · cases h

theorem getStringGo_ne_undefined : ∀ l, getStringGo l ≠ .undefined
  | [] => fun h => by cases h
  | b :: l => by
    have := getStringGo_ne_undefined l
    rw [getStringGo]
    split
    · exact fun h => by cases h
    · split <;> simp_all

theorem getString_good (x r : Bytes) (h : (0 : Byte) ∉ x) : getString (good (x ++ 0 :: r)) = .ok (x, good r) := by
  simp [getString, good, getStringGo_ok x r h]

theorem getString_inv {l x : Bytes} {s : In} (h : getString (good l) = .ok (x, s)) :
    ∃ r, s = good r ∧ l = x ++ 0 :: r ∧ (0 : Byte) ∉ x := by
  simp only [getString, good, Bool.false_eq_true, if_false] at h
  split at h
  · rename_i x' r e
    cases h
    exact ⟨r, rfl, getStringGo_inv _ _ _ e⟩
  · cases h
  · cases h

theorem enc_cons (p : Bytes × Bytes) (l : List (Bytes × Bytes)) :
    enc (p :: l) = p.1 ++ 0 :: (p.2 ++ 0 :: enc l) := by
  simp [enc]

theorem enc_append (l m : List (Bytes × Bytes)) : enc (l ++ m) = enc l ++ enc m := by simp [enc]

theorem getPairs_ok (size : Nat) (r : Bytes) : ∀ (l : List (Bytes × Bytes)) (n count : Nat), l ≠ [] → NulFree l →
    l.length ≤ n → count + (enc l).length = size → getPairs size n count (good (enc l ++ r)) = .ok (l, good r)
  | [], _, _, h, _, _, _ => absurd rfl h
  | (a, b) :: l, 0, _, _, _, h, _ => by simp at h
  | (a, b) :: l, n + 1, count, _, hf, hn, hc => by
    obtain ⟨ha, hb⟩ := hf (a, b) (by simp)
    have e1 : enc ((a, b) :: l) ++ r = a ++ 0 :: (b ++ 0 :: (enc l ++ r)) := by rw [enc_cons]; simp
    have hlen : (enc ((a, b) :: l)).length = a.length + b.length + 2 + (enc l).length := by
      rw [enc_cons]; simp; omega
    rw [e1, getPairs, getString_good _ _ ha]
    dsimp only
    rw [getString_good _ _ hb]
    dsimp only
    rw [if_neg (by omega), if_neg (by simp [good])]
    cases l with
    | nil =>
      have : (enc []).length = 0 := rfl
      rw [if_pos (by omega)]; rfl
    | cons p l =>
      have hp : 2 ≤ (enc (p :: l)).length := by rw [enc_cons]; simp; omega
      rw [if_neg (by omega), getPairs_ok size r (p :: l) n _ (by simp) (fun q hq => hf q (by simp [hq]))
        (by simp at hn ⊢; omega) (by omega)]

theorem getPairs_inv (size : Nat) : ∀ (n count : Nat) (b : Bytes) (l : List (Bytes × Bytes)) (s : In),
    getPairs size n count (good b) = .ok (l, s) →
      ∃ r, s = good r ∧ b = enc l ++ r ∧ NulFree l ∧ count + (enc l).length = size
  | 0, _, _, _, _, h => by cases h
  | n + 1, count, bs, l, s, h => by
    rw [getPairs] at h
    split at h
    · cases h
    · cases h
    · rename_i a s1 e1
      obtain ⟨r1, rfl, rfl, ha⟩ := getString_inv e1
      split at h
      · cases h
      · cases h
      · rename_i b s2 e2
        obtain ⟨r2, rfl, rfl, hb⟩ := getString_inv e2
        dsimp only at h
        split at h
        · cases h
        · split at h
          · cases h
          · split at h
            · rename_i hcount
              cases h
              refine ⟨r2, rfl, by simp [enc], ?_, ?_⟩
              · intro p hp; simp only [List.mem_singleton] at hp; subst hp; exact ⟨ha, hb⟩
              · simp [enc]; omega
            · split at h
              · rename_i l' s3 e3
                cases h
                obtain ⟨r3, h1, h2, h3, h4⟩ := getPairs_inv size n _ r2 l' _ e3
                refine ⟨r3, h1, by rw [h2, enc_cons]; simp, ?_, ?_⟩
                · intro p hp
                  rcases List.mem_cons.mp hp with rfl | hp
                  · exact ⟨ha, hb⟩
                  · exact h3 p hp
                · rw [enc_cons]; simp; omega
              · cases h
              · cases h

/-! ## The data of a written header -/

/-- The pairs of a written header. -/
def pairs (type : FstType) (props extra : List (Bytes × Bytes)) : List (Bytes × Bytes) :=
  (ascii "version", ascii "3.3") :: (ascii "type", typeName type) ::
    (props.filter (fun p => ¬ (p.1 = ascii "type" ∨ p.1 = ascii "version")) ++ extra)

theorem foldl_extra : ∀ (l : List (Bytes × Bytes)) (h : Bytes),
    l.foldl (fun h p => append (append h p.1) p.2) h = h ++ enc l
  | [], h => by simp [enc]
  | p :: l, h => by rw [List.foldl_cons, foldl_extra l, enc_cons]; simp [append]

theorem foldl_props : ∀ (l : List (Bytes × Bytes)) (h : Bytes),
    l.foldl (fun h p => if p.1 = ascii "type" ∨ p.1 = ascii "version" then h else append (append h p.1) p.2) h =
      h ++ enc (l.filter fun p => ¬ (p.1 = ascii "type" ∨ p.1 = ascii "version"))
  | [], h => by simp [enc]
  | p :: l, h => by
    rw [List.foldl_cons, foldl_props l]
    by_cases hp : p.1 = ascii "type" ∨ p.1 = ascii "version"
    · rw [if_pos hp, List.filter_cons_of_neg (by simp only [decide_not, Bool.not_eq_true', hp, decide_true]; decide)]
    · rw [if_neg hp, List.filter_cons_of_pos (by simpa using hp), enc_cons]; simp [append]

theorem headerData_eq (type : FstType) (props extra : List (Bytes × Bytes)) :
    headerData type props extra = enc (pairs type props extra) := by
  unfold headerData
  dsimp only
  rw [foldl_extra, foldl_props]
  unfold pairs
  rw [enc_cons, enc_cons, enc_append]
  simp [append]

theorem typeOfName_typeName (t : FstType) : typeOfName (typeName t) = some t := by cases t <;> decide

/-! ## Recognising the beginning -/

theorem get_good (b : Byte) (r : Bytes) : get (good (b :: r)) = (b, good r) := rfl
theorem get_end : get (good []) = (255, ⟨[], true, true⟩) := rfl

theorem matchId_ok (r : Bytes) : ∀ (id seen : Bytes), matchId id seen (good (id ++ r)) = (true, good r)
  | [], _ => rfl
  | i :: id, seen => by
    rw [List.cons_append, matchId, get_good]
    dsimp only
    rw [if_pos rfl]
    exact matchId_ok r id _

theorem unget_seen (r : Bytes) : ∀ seen : Bytes, seen.foldl (fun s c => unget c s) (good r) = good (seen.reverse ++ r)
  | [] => rfl
  | c :: seen => by
    rw [List.foldl_cons, show unget c (good r) = good (c :: r) from rfl, unget_seen (c :: r) seen]; simp

theorem matchId_restore : ∀ (id seen r : Bytes), ¬ id <+: r → ¬ r <+: id →
    matchId id seen (good r) = (false, good (seen.reverse ++ r))
  | [], _, _, h, _ => absurd (List.nil_prefix) h
  | _ :: _, _, [], _, h => absurd (List.nil_prefix) h
  | i :: id, seen, b :: r, h1, h2 => by
    rw [matchId, get_good]
    dsimp only
    by_cases hb : b = i
    · subst hb
      rw [if_pos rfl, matchId_restore id (b :: seen) r (fun h => h1 (List.cons_prefix_cons.mpr ⟨rfl, h⟩))
        (fun h => h2 (List.cons_prefix_cons.mpr ⟨rfl, h⟩))]
      simp
    · rw [if_neg hb, show unget b (good r) = good (b :: r) from rfl, unget_seen]

theorem fail_unget : ∀ (seen : Bytes) (s : In), s.fail = true → (seen.foldl (fun s c => unget c s) s).fail = true
  | [], _, h => h
  | c :: seen, s, h => by
    rw [List.foldl_cons]; exact fail_unget seen _ (by simp [unget, h])

theorem matchId_lost : ∀ (r id seen : Bytes), r <+: id → r ≠ id → (255 : Byte) ∉ id →
    (matchId id seen (good r)).1 = false ∧ (matchId id seen (good r)).2.fail = true
  | [], [], _, _, h, _ => absurd rfl h
  | [], i :: id, seen, _, _, h => by
    have hi : ¬ (255 : Byte) = i := fun e => h (by simp [e])
    rw [matchId, get_end]
    dsimp only
    rw [if_neg hi]
    exact ⟨rfl, fail_unget _ _ rfl⟩
  | b :: r, [], _, h, _, _ => by simp at h
  | b :: r, i :: id, seen, h1, h2, h3 => by
    rw [List.cons_prefix_cons] at h1
    obtain ⟨rfl, h1⟩ := h1
    rw [matchId, get_good]
    dsimp only
    rw [if_pos rfl]
    exact matchId_lost r id _ h1 (fun e => h2 (by rw [e])) (fun e => h3 (by simp [e]))

theorem size_bytes (n : Nat) (h : n ≤ 65535) :
    (UInt8.ofNat (n / 256)).toNat * 256 + (UInt8.ofNat (n % 256)).toNat = n := by
  simp only [UInt8.toNat_ofNat']
  omega

theorem getHeaderSize_good (a b : Byte) (r : Bytes) :
    getHeaderSize (good (a :: b :: 0 :: r)) = .ok (b.toNat * 256 + a.toNat, good r) := rfl

/-- What reading does with a text that begins like a header. -/
theorem readHeader_new (st : St) (a b : Byte) (r : Bytes) :
    readHeader st (good (ascii "HFST" ++ [0] ++ a :: b :: 0 :: r)) =
      match getHeaderData (b.toNat * 256 + a.toNat) (good r) with
      | .throws => .throws
      | .undefined => .undefined
      | .ok (pairs, s2) =>
        match processHeader st pairs with
        | .ok st' => .ok (some (5 + 3 + (b.toNat * 256 + a.toNat)), s2, st')
        | .throws => .throws
        | .undefined => .undefined := by
  unfold readHeader
  have hp : peek (good (ascii "HFST" ++ [0] ++ a :: b :: 0 :: r)) =
      (72, good (ascii "HFST" ++ [0] ++ a :: b :: 0 :: r)) := rfl
  rw [hp]
  dsimp only
  rw [if_neg (by decide), matchId_ok, getHeaderSize_good]
  rfl

theorem mapGet_foldl (k : Bytes) : ∀ (l m : List (Bytes × Bytes)),
    mapGet (l.foldl (fun m p => mapPut m p.1 p.2) m) k = (lastValue l k).or (mapGet m k)
  | [], m => by simp [lastValue]
  | p :: l, m => by
    rw [List.foldl_cons, mapGet_foldl k l, mapGet_put]
    unfold lastValue
    rw [List.reverse_cons, List.find?_append]
    by_cases hk : k = p.1
    · subst hk
      cases l.reverse.find? (fun q => decide (q.1 = p.1)) <;> simp
    · have : ¬ p.1 = k := fun e => hk e.symm
      cases l.reverse.find? (fun q => decide (q.1 = k)) <;> simp [hk, this]

theorem lastValue_cons {p : Bytes × Bytes} {k : Bytes} (h : p.1 ≠ k) (l : List (Bytes × Bytes)) :
    lastValue (p :: l) k = lastValue l k := by
  unfold lastValue
  rw [List.reverse_cons, List.find?_append]
  simp [h]

theorem lastValue_none {l : List (Bytes × Bytes)} {k : Bytes} : lastValue l k = none ↔ k ∉ l.map Prod.fst := by
  unfold lastValue
  simp only [Option.map_eq_none_iff, List.find?_eq_none, List.mem_reverse, List.mem_map, not_exists, not_and,
    decide_eq_true_eq]

theorem lastValue_pairs (t : FstType) (props extra : List (Bytes × Bytes)) {k : Bytes} (h1 : k ≠ ascii "type")
    (h2 : k ≠ ascii "version") : lastValue (pairs t props extra) k = lastValue (props ++ extra) k := by
  unfold pairs
  rw [lastValue_cons (fun e => h2 e.symm), lastValue_cons (fun e => h1 e.symm)]
  unfold lastValue
  rw [List.reverse_append, List.reverse_append, List.find?_append, List.find?_append, ← List.filter_reverse,
    List.find?_filter]
  congr 3
  funext p
  by_cases hp : p.1 = k
  · have a : ¬ p.1 = ascii "type" := fun e => h1 (hp.symm.trans e)
    have b : ¬ p.1 = ascii "version" := fun e => h2 (hp.symm.trans e)
    simp only [hp, h1, h2, or_self, not_false_eq_true, decide_true, and_self]
  · simp only [hp, decide_false, Bool.false_eq_true, and_false]

theorem mapGet_nodup : ∀ {l : List (Bytes × Bytes)}, (l.map Prod.fst).Nodup → ∀ k, lastValue l k = mapGet l k
  | [], _, _ => rfl
  | p :: l, h, k => by
    rw [List.map_cons, List.nodup_cons] at h
    by_cases hp : p.1 = k
    · subst hp
      have := lastValue_none.mpr h.1
      unfold lastValue at this ⊢
      rw [Option.map_eq_none_iff] at this
      rw [List.reverse_cons, List.find?_append, this]
      simp [mapGet]
    · rw [lastValue_cons hp, mapGet_nodup h.2 k]
      simp [mapGet, hp]

theorem nodup_put {m : List (Bytes × Bytes)} (h : (m.map Prod.fst).Nodup) (k v : Bytes) :
    ((mapPut m k v).map Prod.fst).Nodup := by
  unfold mapPut
  rw [List.map_cons, List.nodup_cons]
  refine ⟨?_, h.sublist ((List.filter_sublist (l := m)).map _)⟩
  simp only [List.mem_map, List.mem_filter, not_exists, not_and]
  rintro p ⟨_, hp⟩ e
  simp [e] at hp

theorem nodup_foldl : ∀ (l : List (Bytes × Bytes)) {m : List (Bytes × Bytes)}, (m.map Prod.fst).Nodup →
    ((l.foldl (fun m p => mapPut m p.1 p.2) m).map Prod.fst).Nodup
  | [], _, h => h
  | p :: l, _, h => nodup_foldl l (nodup_put h p.1 p.2)

/-! ## Reading a written header -/

theorem process_pairs (t : FstType) (props extra : List (Bytes × Bytes)) (st : St) (hst : (st.props.map Prod.fst).Nodup) :
    ∃ st', processHeader st (pairs t props extra) = .ok st' ∧ st'.type = some t ∧ (st'.props.map Prod.fst).Nodup ∧
      (ascii "name" ∉ (pairs t props extra).map Prod.fst → st'.name = st.name) ∧
      ∀ k, k ≠ ascii "type" → k ≠ ascii "version" →
        mapGet st'.props k = (lastValue (pairs t props extra) k).or (mapGet st.props k) := by
  cases hm : props.filter (fun p => ¬ (p.1 = ascii "type" ∨ p.1 = ascii "version")) ++ extra with
  | nil =>
    have hp : pairs t props extra = [(ascii "version", ascii "3.3"), (ascii "type", typeName t)] := by
      unfold pairs; rw [hm]
    rw [hp]
    refine ⟨{ st with type := some t }, ?_, rfl, hst, fun _ => rfl, ?_⟩
    · unfold processHeader
      dsimp only
      rw [if_neg (fun h => h ⟨rfl, .inr rfl⟩), if_neg (fun h => h rfl), typeOfName_typeName]
    · intro k h1 h2
      rw [lastValue_cons (fun e => h2 e.symm), lastValue_cons (fun e => h1 e.symm)]
      rfl
  | cons q more =>
    obtain ⟨k2, v2⟩ := q
    have hp : pairs t props extra = (ascii "version", ascii "3.3") :: (ascii "type", typeName t) :: (k2, v2) :: more := by
      unfold pairs; rw [hm]
    rw [hp]
    refine ⟨_, by
      unfold processHeader
      dsimp only
      rw [if_neg (fun h => h ⟨rfl, .inr rfl⟩), if_neg (fun h => h rfl), typeOfName_typeName], rfl,
      nodup_foldl _ hst, ?_, ?_⟩
    · intro h
      have : k2 ≠ ascii "name" := fun e => h (by simp [e])
      exact if_neg this
    · intro k _ _
      exact mapGet_foldl k _ _

theorem nulFree_pairs (t : FstType) {props extra : List (Bytes × Bytes)} (h1 : NulFree props) (h2 : NulFree extra) :
    NulFree (pairs t props extra) := by
  have ht : (0 : Byte) ∉ typeName t := by cases t <;> decide
  intro p hp
  unfold pairs at hp
  rw [List.mem_cons, List.mem_cons, List.mem_append, List.mem_filter] at hp
  rcases hp with rfl | rfl | hp | hp
  · exact ⟨by decide, by decide⟩
  · exact ⟨show (0 : Byte) ∉ ascii "type" by decide, ht⟩
  · exact h1 p hp.1
  · exact h2 p hp

theorem length_pairs_le : ∀ l : List (Bytes × Bytes), l.length ≤ (enc l).length
  | [] => Nat.le_refl _
  | p :: l => by have := length_pairs_le l; rw [enc_cons]; simp; omega

theorem written_eq {t : FstType} {props extra : List (Bytes × Bytes)} (hw : (writeHeader t props extra).2 = false) :
    (enc (pairs t props extra)).length ≤ 65535 ∧ (writeHeader t props extra).1 = ascii "HFST" ++ [0] ++
      UInt8.ofNat ((enc (pairs t props extra)).length % 256) :: UInt8.ofNat ((enc (pairs t props extra)).length / 256) ::
        0 :: enc (pairs t props extra) := by
  unfold writeHeader at hw ⊢
  dsimp only at hw ⊢
  rw [headerData_eq] at hw ⊢
  split_ifs at hw ⊢ with h
  exact ⟨by omega, by simp only [List.append_assoc, List.cons_append, List.nil_append]⟩

theorem read_written {t : FstType} {props extra : List (Bytes × Bytes)} (h1 : NulFree props) (h2 : NulFree extra)
    (hw : (writeHeader t props extra).2 = false) (st st' : St) (payload : Bytes)
    (hp : processHeader st (pairs t props extra) = .ok st') :
    readHeader st (good ((writeHeader t props extra).1 ++ payload)) =
      .ok (some (writeHeader t props extra).1.length, good payload, st') := by
  obtain ⟨hl, e⟩ := written_eq hw
  have hlen : (writeHeader t props extra).1.length = 5 + 3 + (enc (pairs t props extra)).length := by
    rw [e]
    simp only [List.length_append, List.length_cons, List.length_nil, show (ascii "HFST").length = 4 from by decide]
    omega
  rw [hlen, e]
  have e2 : ∀ (x : Bytes) (a b : Byte) (y : Bytes), x ++ a :: b :: 0 :: y ++ payload = x ++ a :: b :: 0 :: (y ++ payload) := by
    intros; simp
  rw [e2, readHeader_new, size_bytes _ hl]
  unfold getHeaderData
  rw [getPairs_ok _ payload _ _ 0 (by simp [pairs]) (nulFree_pairs t h1 h2)
    (Nat.le_succ_of_le (length_pairs_le _)) (by omega)]
  dsimp only
  rw [hp]

theorem getProperty_read (st : St) (h : (st.props.map Prod.fst).Nodup) (k : Bytes) :
    getProperty (transducerProps st) k =
      ((mapGet st.props k).or (if k = ascii "name" then some st.name else none)).getD [] := by
  unfold getProperty transducerProps
  rw [mapGet_foldl, mapGet_nodup h, mapGet_put]
  rfl

/-! ## C45: properties of the transducers of one stream -/

/-- A written header is read back with its type and exactly its properties, whatever was read before, if every property
seen earlier is given again.  Missing: properties that are not given again, see `C45_violated`. -/
theorem C45_partial (t : FstType) (props extra : List (Bytes × Bytes)) (h1 : NulFree props) (h2 : NulFree extra)
    (hw : (writeHeader t props extra).2 = false) (st : St) (hst : (st.props.map Prod.fst).Nodup)
    (hkeys : ∀ k ∈ st.props.map Prod.fst, k = ascii "type" ∨ k = ascii "version" ∨ k ∈ (props ++ extra).map Prod.fst)
    (hname : ascii "name" ∈ (props ++ extra).map Prod.fst ∨ st.name = []) (payload : Bytes) :
    ∃ st', readHeader st (good ((writeHeader t props extra).1 ++ payload)) =
        .ok (some (writeHeader t props extra).1.length, good payload, st') ∧ st'.type = some t ∧
      ∀ k, k ≠ ascii "type" → k ≠ ascii "version" →
        getProperty (transducerProps st') k = (lastValue (props ++ extra) k).getD [] := by
  obtain ⟨st', e, ht, hn, hnm, hg⟩ := process_pairs t props extra st hst
  refine ⟨st', read_written h1 h2 hw st st' payload e, ht, ?_⟩
  intro k k1 k2
  rw [getProperty_read st' hn, hg k k1 k2, lastValue_pairs t props extra k1 k2]
  cases hv : lastValue (props ++ extra) k with
  | some v => rfl
  | none =>
    have hk := lastValue_none.mp hv
    have hm : mapGet st.props k = none := by
      rw [← mapGet_nodup hst, lastValue_none]
      intro h
      rcases hkeys k h with h | h | h
      · exact k1 h
      · exact k2 h
      · exact hk h
    rw [hm]
    by_cases hkn : k = ascii "name"
    · have hs : st.name = [] := hname.resolve_left (by rw [← hkn]; exact hk)
      have : st'.name = st.name := hnm (by
        rw [← hkn, ← lastValue_none, lastValue_pairs t props extra k1 k2]; exact hv)
      rw [if_pos hkn, this, hs]
      rfl
    · rw [if_neg hkn]; rfl

/-- A second header that gives a name and an author again, after one that gave an author. -/
example : ∃ st : St, (st.props.map Prod.fst).Nodup ∧ st.props ≠ [] ∧
    (∀ k ∈ st.props.map Prod.fst, k = ascii "type" ∨ k = ascii "version" ∨
      k ∈ ([(ascii "author", ascii "y"), (ascii "name", ascii "z")] ++ []).map Prod.fst) ∧
    (writeHeader .ol [(ascii "author", ascii "y"), (ascii "name", ascii "z")] []).2 = false :=
  ⟨⟨some .ol, [], [(ascii "author", ascii "x"), (ascii "type", ascii "HFST_OL")]⟩, by decide +kernel, by decide +kernel,
    by decide +kernel, by decide +kernel⟩

/-- A property that was read with an earlier transducer and is not given for the next one is taken over by it. -/
theorem C45_violated (t : FstType) (props extra : List (Bytes × Bytes)) (h1 : NulFree props) (h2 : NulFree extra)
    (hw : (writeHeader t props extra).2 = false) (st : St) (hst : (st.props.map Prod.fst).Nodup) (k v : Bytes)
    (k1 : k ≠ ascii "type") (k2 : k ≠ ascii "version") (hv : mapGet st.props k = some v)
    (hk : k ∉ (props ++ extra).map Prod.fst) (payload : Bytes) :
    ∃ st', readHeader st (good ((writeHeader t props extra).1 ++ payload)) =
        .ok (some (writeHeader t props extra).1.length, good payload, st') ∧
      getProperty (transducerProps st') k = v := by
  obtain ⟨st', e, ht, hn, hnm, hg⟩ := process_pairs t props extra st hst
  refine ⟨st', read_written h1 h2 hw st st' payload e, ?_⟩
  rw [getProperty_read st' hn, hg k k1 k2, lastValue_pairs t props extra k1 k2, lastValue_none.mpr hk, hv]
  rfl

/-- A stream that was just opened. -/
def fresh : St := ⟨none, [], []⟩

/-- The same for two transducers in one stream: the second one, written without properties, has the author of the first. -/
theorem C45_stream_violated :
    ∃ st1 st2, readHeader fresh (good (writeHeader .foma [(ascii "author", ascii "x")] []).1) =
        .ok (some (writeHeader .foma [(ascii "author", ascii "x")] []).1.length, good [], st1) ∧
      readHeader st1 (good (writeHeader .foma [] []).1) = .ok (some (writeHeader .foma [] []).1.length, good [], st2) ∧
      getProperty (transducerProps st2) (ascii "author") = ascii "x" := by
  have n1 : NulFree [(ascii "author", ascii "x")] := by
    intro p hp; simp only [List.mem_singleton] at hp; subst hp; exact ⟨by decide, by decide⟩
  have n0 : NulFree [] := fun p hp => absurd hp (by simp)
  obtain ⟨st1, e, _, hn, _, hg⟩ := process_pairs .foma [(ascii "author", ascii "x")] [] fresh (by simp [fresh])
  have r1 := read_written n1 n0 (by decide +kernel) fresh st1 [] e
  have hv : mapGet st1.props (ascii "author") = some (ascii "x") := by
    rw [hg _ (by decide) (by decide)]; decide +kernel
  obtain ⟨st2, r2, h⟩ := C45_violated .foma [] [] n0 n0 (by decide +kernel) st1 hn (ascii "author") (ascii "x") (by decide)
    (by decide) hv (by simp) []
  rw [List.append_nil] at r1 r2
  exact ⟨st1, st2, r1, r2, h⟩

/-! ## C44: round trip and refusal -/

/-- The header of the first transducer of a stream is read back with the same type and the same properties, and reading
goes on behind it. -/
theorem C44_roundtrip (t : FstType) (props extra : List (Bytes × Bytes)) (h1 : NulFree props) (h2 : NulFree extra)
    (hw : (writeHeader t props extra).2 = false) (payload : Bytes) :
    ∃ st', readHeader fresh (good ((writeHeader t props extra).1 ++ payload)) =
        .ok (some (writeHeader t props extra).1.length, good payload, st') ∧ st'.type = some t ∧
      ∀ k, k ≠ ascii "type" → k ≠ ascii "version" →
        getProperty (transducerProps st') k = (lastValue (props ++ extra) k).getD [] :=
  C45_partial t props extra h1 h2 hw fresh (by simp [fresh]) (by simp [fresh]) (.inr rfl) payload

example : (writeHeader .foma [(ascii "name", ascii "x")] []).2 = false ∧
    NulFree [(ascii "name", ascii "x")] := by
  refine ⟨by decide +kernel, ?_⟩
  intro p hp; simp only [List.mem_singleton] at hp; subst hp; exact ⟨by decide, by decide⟩

/-- Writing is refused exactly if the data do not fit the two bytes of the length field. -/
theorem C44_refused_write (t : FstType) (props extra : List (Bytes × Bytes)) :
    (writeHeader t props extra).2 = true ↔ 65535 < (enc (pairs t props extra)).length := by
  unfold writeHeader
  dsimp only
  rw [headerData_eq]
  split_ifs with h <;> simp [h]

theorem process_inv {st st' : St} : ∀ {l : List (Bytes × Bytes)}, processHeader st l = .ok st' →
    ∃ v tn t, l.take 2 = [(ascii "version", v), (ascii "type", tn)] ∧ (v = ascii "3.0" ∨ v = ascii "3.3") ∧
      typeOfName tn = some t ∧ st'.type = some t
  | [], h => by cases h
  | [_], h => by cases h
  | (k0, v0) :: (k1, v1) :: more, h => by
    unfold processHeader at h
    dsimp only at h
    split at h
    · cases h
    · rename_i h0
      split at h
      · cases h
      · rename_i h1
        rw [not_not] at h0 h1
        split at h
        · cases h
        · rename_i t ht
          refine ⟨v0, v1, t, by rw [← h0.1, ← h1]; rfl, h0.2, ht, ?_⟩
          split at h <;> (cases h; rfl)

/-- What is accepted as a header of the present kind is one: a length, then exactly that many bytes of pairs, beginning
with a known version and a known type. -/
theorem C44_accepted {st st' : St} {r : Bytes} {n : Nat} {s : In}
    (h : readHeader st (good (ascii "HFST" ++ [0] ++ r)) = .ok (some n, s, st')) :
    ∃ a b l rest v tn t, r = a :: b :: 0 :: (enc l ++ rest) ∧ s = good rest ∧
      (enc l).length = b.toNat * 256 + a.toNat ∧ n = 8 + (enc l).length ∧ NulFree l ∧
      l.take 2 = [(ascii "version", v), (ascii "type", tn)] ∧ (v = ascii "3.0" ∨ v = ascii "3.3") ∧
      typeOfName tn = some t ∧ st'.type = some t := by
  have hshort : ∀ r : Bytes, getHeaderSize (good r) = .throws →
      readHeader st (good (ascii "HFST" ++ [0] ++ r)) = .throws := by
    intro r hr
    unfold readHeader
    have hp : peek (good (ascii "HFST" ++ [0] ++ r)) = (72, good (ascii "HFST" ++ [0] ++ r)) := rfl
    rw [hp]
    dsimp only
    rw [if_neg (by decide), matchId_ok, hr]
    rfl
  rcases r with _ | ⟨a, _ | ⟨b, _ | ⟨c, r⟩⟩⟩
  · rw [hshort [] rfl] at h; cases h
  · rw [hshort [a] rfl] at h; cases h
  · rw [hshort [a, b] rfl] at h; cases h
  · by_cases hc : c = 0
    · subst hc
      rw [readHeader_new] at h
      split at h
      · cases h
      · cases h
      · rename_i l s2 e
        obtain ⟨rest, rfl, rfl, hf, hl⟩ := getPairs_inv _ _ _ _ _ _ e
        split at h
        · rename_i st2 e2
          cases h
          obtain ⟨v, tn, t, h1, h2, h3, h4⟩ := process_inv e2
          exact ⟨a, b, l, rest, v, tn, t, rfl, rfl, by omega, by omega, hf, h1, h2, h3, h4⟩
        · cases h
        · cases h
    · have : getHeaderSize (good (a :: b :: c :: r)) = .throws := if_pos hc
      rw [hshort _ this] at h; cases h

/-- `C44_accepted` and `C46_new` on a header with a property, followed by one byte. -/
example : readHeader fresh (good ((writeHeader .foma [(ascii "a", ascii "b")] []).1 ++ [7])) =
    .ok (some (writeHeader .foma [(ascii "a", ascii "b")] []).1.length, good [7],
      ⟨some .foma, [], [(ascii "a", ascii "b"), (ascii "type", ascii "FOMA"), (ascii "version", ascii "3.3")]⟩) := by
  decide +kernel

theorem prefix_append {p a b : Bytes} (h : p <+: a ++ b) : (p <+: a ∧ p ≠ a) ∨ ∃ q, p = a ++ q ∧ q <+: b := by
  by_cases hl : a.length ≤ p.length
  · obtain ⟨q, rfl⟩ := List.prefix_of_prefix_length_le (List.prefix_append a b) h hl
    exact .inr ⟨q, rfl, (List.prefix_append_right_inj a).mp h⟩
  · exact .inl ⟨List.prefix_of_prefix_length_le h (List.prefix_append a b) (by omega), fun e => hl (by rw [e])⟩

theorem matchId_failed (i : Byte) (id seen : Bytes) (s : In) (h : s.fail = true) (hi : i ≠ 255) :
    (matchId (i :: id) seen s).1 = false ∧ (matchId (i :: id) seen s).2.fail = true := by
  have hg : get s = (255, s) := by unfold get; rw [if_pos h]
  rw [matchId, hg]
  dsimp only
  rw [if_neg (fun e => hi e.symm)]
  exact ⟨rfl, fail_unget _ _ (by simp [unget, h])⟩

/-- A stream that ends within the first five bytes. -/
theorem read_short (st : St) {p : Bytes} (h : p <+: ascii "HFST" ++ [0]) (hne : p ≠ ascii "HFST" ++ [0]) :
    ∃ s, readHeader st (good p) = .ok (none, s, st) ∧ s.fail = true := by
  cases p with
  | nil => exact ⟨⟨[], false, true⟩, rfl, rfl⟩
  | cons b p =>
    have hb : b = 72 := (List.cons_prefix_cons.mp h).1
    subst hb
    have hp : peek (good (72 :: p)) = (72, good (72 :: p)) := rfl
    obtain ⟨h1, h2⟩ := matchId_lost (72 :: p) (ascii "HFST" ++ [0]) [] h hne (by decide)
    have h3 := matchId_failed 72 (ascii "FST3" ++ [0]) [] _ h2 (by decide)
    rw [show (72 : Byte) :: (ascii "FST3" ++ [0]) = ascii "HFST3" ++ [0] from by decide] at h3
    refine ⟨_, ?_, h3.2⟩
    unfold readHeader
    rw [hp]
    dsimp only
    rw [if_neg (by decide), h1, h3.1]
    rfl

/-- A header that was cut off is never accepted. -/
theorem C44_truncated (t : FstType) (props extra : List (Bytes × Bytes)) (hw : (writeHeader t props extra).2 = false)
    (p : Bytes) (hp : p <+: (writeHeader t props extra).1) (hne : p ≠ (writeHeader t props extra).1) (st : St) :
    ∀ n s st', readHeader st (good p) ≠ .ok (some n, s, st') := by
  intro n s st' h
  obtain ⟨hl, e⟩ := written_eq hw
  rw [e] at hp hne
  rcases prefix_append hp with ⟨h1, h2⟩ | ⟨q, rfl, hq⟩
  · obtain ⟨s', h3, _⟩ := read_short st h1 h2
    rw [h3] at h; cases h
  · obtain ⟨a, b, l, rest, v, tn, t', rfl, _, hlen, _⟩ := C44_accepted h
    rw [List.cons_prefix_cons, List.cons_prefix_cons, List.cons_prefix_cons] at hq
    obtain ⟨rfl, rfl, _, hq⟩ := hq
    rw [size_bytes _ hl] at hlen
    have := hq.length_le
    rw [List.length_append] at this
    exact hne (by rw [hq.eq_of_length (by rw [List.length_append]; omega)])

example : (writeHeader .foma [(ascii "a", ascii "b")] []).1.dropLast <+: (writeHeader .foma [(ascii "a", ascii "b")] []).1 ∧
    readHeader fresh (good (writeHeader .foma [(ascii "a", ascii "b")] []).1.dropLast) = .throws := by
  decide +kernel

/-! ## C46: the reported length, and streams that are not recognised -/

/-- For headers of the present kind the reported number is the number of bytes read. -/
theorem C46_new {st st' : St} {r : Bytes} {n : Nat} {s : In}
    (h : readHeader st (good (ascii "HFST" ++ [0] ++ r)) = .ok (some n, s, st')) :
    ∃ rest, s = good rest ∧ (ascii "HFST" ++ [0] ++ r).drop n = rest ∧
      (ascii "HFST" ++ [0] ++ r).length = n + rest.length := by
  obtain ⟨a, b, l, rest, v, tn, t, rfl, rfl, _, rfl, _⟩ := C44_accepted h
  have e : ascii "HFST" ++ [0] ++ a :: b :: 0 :: (enc l ++ rest) = (ascii "HFST" ++ [0, a, b, 0] ++ enc l) ++ rest := by
    simp
  have hlen : (ascii "HFST" ++ [0, a, b, 0] ++ enc l).length = 8 + (enc l).length := by
    simp only [List.length_append, List.length_cons, List.length_nil, show (ascii "HFST").length = 4 from by decide]
  refine ⟨rest, rfl, ?_, ?_⟩
  · rw [e, ← hlen, List.drop_left]
  · rw [e, List.length_append, hlen]

theorem old_not_new (x : Bytes) : ¬ ascii "HFST" ++ [0] <+: ascii "HFST3" ++ [0] ++ x ∧
    ¬ ascii "HFST3" ++ [0] ++ x <+: ascii "HFST" ++ [0] := by
  rw [show ascii "HFST3" ++ [0] ++ x = ascii "HFST" ++ (51 :: 0 :: x) from by
    rw [show ascii "HFST3" = ascii "HFST" ++ [51] from by decide]; simp]
  constructor
  · rw [List.prefix_append_right_inj, List.cons_prefix_cons]
    exact fun h => absurd h.1 (by decide)
  · rw [List.prefix_append_right_inj, List.cons_prefix_cons]
    exact fun h => absurd h.1 (by decide)

/-- What reading does with a header of the old kind. -/
theorem read_old (st : St) (name rest : Bytes) (hn : (0 : Byte) ∉ name) :
    readHeader st (good (ascii "HFST3" ++ [0] ++ (name ++ 0 :: rest))) =
      match typeOld name with
      | none => .throws
      | some (t, n) => .ok (some (6 + n), good rest, { st with type := some t }) := by
  unfold readHeader
  have hp : peek (good (ascii "HFST3" ++ [0] ++ (name ++ 0 :: rest))) =
      (72, good (ascii "HFST3" ++ [0] ++ (name ++ 0 :: rest))) := rfl
  rw [hp]
  dsimp only
  rw [if_neg (by decide), matchId_restore _ [] _ (old_not_new _).1 (old_not_new _).2]
  dsimp only
  rw [if_neg (by decide), List.reverse_nil, List.nil_append, matchId_ok]
  dsimp only
  rw [if_pos rfl, getString_good _ _ hn]
  rfl

/-- For headers of the old kind the reported number is right for these types.  Missing: the two types of
`C46_old_violated`. -/
theorem C46_old_partial (st : St) (name rest : Bytes)
    (h : name ∈ [ascii "SFST_TYPE", ascii "FOMA_TYPE", ascii "HFST_OL_TYPE", ascii "HFST_OLW_TYPE"]) :
    ∃ st', readHeader st (good (ascii "HFST3" ++ [0] ++ (name ++ 0 :: rest))) =
      .ok (some (ascii "HFST3" ++ [0] ++ (name ++ [0])).length, good rest, st') := by
  simp only [List.mem_cons, List.not_mem_nil, or_false] at h
  rcases h with rfl | rfl | rfl | rfl
  · exact ⟨_, read_old st _ rest (by decide)⟩
  · exact ⟨_, read_old st _ rest (by decide)⟩
  · exact ⟨_, read_old st _ rest (by decide)⟩
  · exact ⟨_, read_old st _ rest (by decide)⟩

/-- For these types it is three less than the number of bytes that were read. -/
theorem C46_old_violated (st : St) (name rest : Bytes)
    (h : name ∈ [ascii "TROPICAL_OPENFST_TYPE", ascii "LOG_OPENFST_TYPE"]) :
    ∃ n st', readHeader st (good (ascii "HFST3" ++ [0] ++ (name ++ 0 :: rest))) = .ok (some n, good rest, st') ∧
      n + 3 = (ascii "HFST3" ++ [0] ++ (name ++ [0])).length := by
  simp only [List.mem_cons, List.not_mem_nil, or_false] at h
  rcases h with rfl | rfl
  · exact ⟨_, _, read_old st _ rest (by decide), by decide⟩
  · exact ⟨_, _, read_old st _ rest (by decide), by decide⟩

/-- A stream that cannot become a header by going on, and does not begin like one, is left as it was.  Missing: streams
that end too early, see `C46_unrecognised_violated`. -/
theorem C46_unrecognised_partial (st : St) (r : Bytes)
    (h1 : ¬ ascii "HFST" ++ [0] <+: r) (h2 : ¬ r <+: ascii "HFST" ++ [0])
    (h3 : ¬ ascii "HFST3" ++ [0] <+: r) (h4 : ¬ r <+: ascii "HFST3" ++ [0]) :
    readHeader st (good r) = .ok (none, good r, st) := by
  unfold readHeader
  cases r with
  | nil => exact absurd List.nil_prefix h2
  | cons b r =>
    have hp : peek (good (b :: r)) = (b, good (b :: r)) := rfl
    rw [hp]
    dsimp only
    by_cases hb : b ≠ 72
    · rw [if_pos hb]
    · rw [if_neg hb, matchId_restore _ _ _ h1 h2]
      dsimp only
      rw [if_neg (by decide), List.reverse_nil, List.nil_append, matchId_restore _ _ _ h3 h4]
      dsimp only
      rw [if_neg (by decide), List.reverse_nil, List.nil_append]

example : readHeader fresh (good (ascii "HFSX")) = .ok (none, good (ascii "HFSX"), fresh) := by
  refine C46_unrecognised_partial _ _ ?_ ?_ ?_ ?_ <;> decide

/-- A stream that ends before it can be told is not recognised either, but what was read is lost: the stream has failed. -/
theorem C46_unrecognised_violated (st : St) (p : Bytes) (h : p <+: ascii "HFST" ++ [0])
    (hne : p ≠ ascii "HFST" ++ [0]) :
    ∃ s, readHeader st (good p) = .ok (none, s, st) ∧ s.fail = true ∧ s ≠ good p := by
  obtain ⟨s, h1, h2⟩ := read_short st h hne
  exact ⟨s, h1, h2, fun e => by rw [e] at h2; cases h2⟩

example : ascii "HFS" <+: ascii "HFST" ++ [0] ∧ ascii "HFS" ≠ ascii "HFST" ++ [0] := by decide

end Hfst.Stream
