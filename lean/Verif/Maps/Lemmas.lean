import Verif.Maps.Model
import Verif.Maps.Spec

namespace Verif.Maps

/-! ## Dense arrays of elements -/

/-- Listing a dense array in which keys occur once. -/
theorem lists_dense {dense : Nat → Nat × Int} {size : Nat} {m : Content}
    (hinj : ∀ i j, i < size → j < size → (dense i).1 = (dense j).1 → i = j)
    (hm : ∀ k v, m k = some v ↔ ∃ i, i < size ∧ dense i = (k, v)) :
    Lists ((List.range size).map dense) m := by
  refine ⟨?_, ?_⟩
  · rw [List.map_map]
    refine nodup_map_on List.nodup_range ?_
    intro a ha b hb hab
    exact hinj a b (List.mem_range.1 ha) (List.mem_range.1 hb) hab
  · intro k v
    rw [hm, List.mem_map]
    constructor
    · rintro ⟨i, hi, he⟩
      exact ⟨i, List.mem_range.1 hi, he⟩
    · rintro ⟨i, hi, he⟩
      exact ⟨i, List.mem_range.2 hi, he⟩

/-! ## SparseMap -/

structure SparseMap.Inv (s : SparseMap) : Prop where
  back : ∀ i, i < s.size → s.sparse (s.dense i).1 = i
  key : ∀ i, i < s.size → (s.dense i).1 < s.cap

theorem SparseMap.Inv.inj {s : SparseMap} (h : s.Inv) {i j : Nat} (hi : i < s.size)
    (hj : j < s.size) (he : (s.dense i).1 = (s.dense j).1) : i = j := by
  rw [← h.back i hi, ← h.back j hj, he]

theorem SparseMap.Inv.size_le {s : SparseMap} (h : s.Inv) : s.size ≤ s.cap := by
  have hnd : ((List.range s.size).map fun i => (s.dense i).1).Nodup := by
    refine nodup_map_on List.nodup_range ?_
    intro a ha b hb hab
    exact h.inj (List.mem_range.1 ha) (List.mem_range.1 hb) hab
  have := nodup_length_le hnd (m := List.range s.cap) (by
    intro x hx
    obtain ⟨i, hi, rfl⟩ := List.mem_map.1 hx
    exact List.mem_range.2 (h.key i (List.mem_range.1 hi)))
  simpa using this

theorem SparseMap.Inv.contains_iff {s : SparseMap} (h : s.Inv) (k : Nat) :
    s.contains k = true ↔ ∃ i, i < s.size ∧ (s.dense i).1 = k := by
  unfold SparseMap.contains
  simp only [Bool.and_eq_true, decide_eq_true_eq, beq_iff_eq]
  constructor
  · rintro ⟨h1, h2⟩; exact ⟨_, h1, h2⟩
  · rintro ⟨i, hi, rfl⟩
    rw [h.back i hi]
    exact ⟨hi, rfl⟩

theorem SparseMap.Inv.get_iff {s : SparseMap} (h : s.Inv) (k : Nat) (v : Int) :
    s.get? k = some v ↔ ∃ i, i < s.size ∧ s.dense i = (k, v) := by
  unfold SparseMap.get?
  constructor
  · intro he
    split at he
    · rename_i hc
      obtain ⟨i, hi, rfl⟩ := (h.contains_iff k).1 hc
      rw [h.back i hi] at he
      cases he
      exact ⟨i, hi, rfl⟩
    · cases he
  · rintro ⟨i, hi, he⟩
    have hk : (s.dense i).1 = k := by rw [he]
    rw [if_pos ((h.contains_iff k).2 ⟨i, hi, hk⟩), ← hk, h.back i hi, he]

theorem SparseMap.Inv.full {s : SparseMap} (h : s.Inv) (hs : s.cap ≤ s.size) {k : Nat}
    (hk : k < s.cap) : s.contains k = true := by
  apply Classical.byContradiction
  intro hc
  rw [h.contains_iff] at hc
  have hnd : (k :: (List.range s.size).map fun i => (s.dense i).1).Nodup := by
    refine List.nodup_cons.2 ⟨?_, nodup_map_on List.nodup_range ?_⟩
    · intro hm
      obtain ⟨i, hi, he⟩ := List.mem_map.1 hm
      exact hc ⟨i, List.mem_range.1 hi, he⟩
    · intro a ha b hb hab
      exact h.inj (List.mem_range.1 ha) (List.mem_range.1 hb) hab
  have := nodup_length_le hnd (m := List.range s.cap) (by
    intro x hx
    rcases List.mem_cons.1 hx with rfl | hx
    · exact List.mem_range.2 hk
    · obtain ⟨i, hi, rfl⟩ := List.mem_map.1 hx
      exact List.mem_range.2 (h.key i (List.mem_range.1 hi)))
  simp at this
  omega

theorem option_int_ext {a b : Option Int} (h : ∀ v, a = some v ↔ b = some v) : a = b := by
  cases a with
  | none =>
    cases b with
    | none => rfl
    | some v => exact absurd ((h v).2 rfl) (by simp)
  | some v => exact ((h v).1 rfl).symm

theorem SparseMap.add_ok {s : SparseMap} (h : s.Inv) {k : Nat} (hk : k < s.cap) (v : Int) :
    ∃ s', s.add? k v = some s' ∧ s'.Inv ∧ s'.cap = s.cap ∧ s'.contains k = true ∧
      s'.get? = if (s.get? k).isSome then s.get? else upd s.get? k (some v) := by
  unfold SparseMap.add?
  rw [if_neg (by omega)]
  by_cases hc : s.contains k = true
  · rw [if_pos hc]
    refine ⟨s, rfl, h, rfl, hc, ?_⟩
    rw [if_pos]
    unfold SparseMap.get?
    rw [if_pos hc]; rfl
  · rw [if_neg hc]
    have hsz : s.size < s.cap := by
      rcases Nat.lt_or_ge s.size s.cap with h1 | h1
      · exact h1
      · exact absurd (h.full h1 hk) hc
    unfold SparseMap.append?
    rw [if_neg (by omega)]
    have hnk : ∀ i, i < s.size → (s.dense i).1 ≠ k := fun i hi he =>
      hc ((h.contains_iff k).2 ⟨i, hi, he⟩)
    have hinv : SparseMap.Inv { s with
        dense := upd s.dense s.size (k, v), sparse := upd s.sparse k s.size,
        size := s.size + 1 } := by
      refine ⟨?_, ?_⟩ <;> intro i hi
      · show upd s.sparse k s.size (upd s.dense s.size (k, v) i).1 = i
        by_cases hi' : i = s.size
        · subst hi'; rw [upd_same, upd_same]
        · have : i < s.size + 1 := hi
          rw [upd_ne _ _ hi', upd_ne _ _ (hnk i (by omega))]
          exact h.back i (by omega)
      · show (upd s.dense s.size (k, v) i).1 < s.cap
        by_cases hi' : i = s.size
        · subst hi'; rw [upd_same]; exact hk
        · have : i < s.size + 1 := hi
          rw [upd_ne _ _ hi']
          exact h.key i (by omega)
    refine ⟨_, rfl, hinv, rfl, ?_, ?_⟩
    · rw [hinv.contains_iff]
      exact ⟨s.size, Nat.lt_succ_self _, by show (upd s.dense s.size (k, v) s.size).1 = k; simp⟩
    · have hg : s.get? k = none := by unfold SparseMap.get?; rw [if_neg hc]
      rw [if_neg (by rw [hg]; simp)]
      funext k'
      apply option_int_ext
      intro v'
      rw [hinv.get_iff]
      by_cases hkk : k' = k
      · subst hkk
        rw [upd_same]
        constructor
        · rintro ⟨i, hi, he⟩
          change upd s.dense s.size (k', v) i = (k', v') at he
          by_cases hi' : i = s.size
          · subst hi'; rw [upd_same] at he; cases he; rfl
          · rw [upd_ne _ _ hi'] at he
            have : i < s.size + 1 := hi
            exact absurd (by rw [he]) (hnk i (by omega))
        · intro he
          cases he
          exact ⟨s.size, Nat.lt_succ_self _, upd_same ..⟩
      · rw [upd_ne _ _ hkk, h.get_iff]
        constructor
        · rintro ⟨i, hi, he⟩
          change upd s.dense s.size (k, v) i = (k', v') at he
          by_cases hi' : i = s.size
          · subst hi'; rw [upd_same] at he; cases he; exact absurd rfl hkk
          · rw [upd_ne _ _ hi'] at he
            have : i < s.size + 1 := hi
            exact ⟨i, by omega, he⟩
        · rintro ⟨i, hi, he⟩
          exact ⟨i, Nat.lt_succ_of_lt hi, by
            show upd s.dense s.size (k, v) i = (k', v')
            rw [upd_ne _ _ (by omega), he]⟩

theorem SparseMap.modify_ok {s : SparseMap} (h : s.Inv) {k : Nat} (hk : k < s.cap)
    (f : Int → Int) :
    ∃ s', s.modify? k f = some s' ∧ s'.Inv ∧ s'.cap = s.cap ∧
      s'.get? = upd s.get? k (some (f ((s.get? k).getD 0))) := by
  obtain ⟨t, t1, t2, t3, t4, t5⟩ := add_ok h hk 0
  unfold SparseMap.modify?
  rw [t1]
  simp only [Option.bind_eq_bind, Option.bind_some]
  obtain ⟨p, hp, hpk⟩ := (t2.contains_iff k).1 t4
  have hback := t2.back p hp
  rw [hpk] at hback
  rw [hback]
  have hkey : ∀ i, (upd t.dense p ((t.dense p).1, f (t.dense p).2) i).1 = (t.dense i).1 := by
    intro i
    by_cases hi : i = p
    · subst hi; rw [upd_same]
    · rw [upd_ne _ _ hi]
  have hinv : SparseMap.Inv { t with dense := upd t.dense p ((t.dense p).1, f (t.dense p).2) } := by
    refine ⟨?_, ?_⟩ <;> intro i hi
    · show t.sparse (upd t.dense p ((t.dense p).1, f (t.dense p).2) i).1 = i
      rw [hkey]; exact t2.back i hi
    · show (upd t.dense p ((t.dense p).1, f (t.dense p).2) i).1 < t.cap
      rw [hkey]; exact t2.key i hi
  refine ⟨_, rfl, hinv, t3, ?_⟩
  have hold : t.get? k = some (t.dense p).2 := (t2.get_iff k _).2 ⟨p, hp, by rw [← hpk]⟩
  have hval : (s.get? k).getD 0 = (t.dense p).2 := by
    rw [t5] at hold
    split at hold
    · rw [hold]; rfl
    · rename_i hn
      rw [upd_same] at hold
      cases hg : s.get? k with
      | none => simpa using hold
      | some v => rw [hg] at hn; simp at hn
  have ht : ∀ k', k' ≠ k → t.get? k' = s.get? k' := by
    intro k' hkk
    rw [t5]
    split
    · rfl
    · rw [upd_ne _ _ hkk]
  funext k'
  by_cases hkk : k' = k
  · subst hkk
    rw [upd_same, hval, hinv.get_iff]
    exact ⟨p, hp, by
      show upd t.dense p ((t.dense p).1, f (t.dense p).2) p = _
      rw [upd_same, hpk]⟩
  · rw [upd_ne _ _ hkk, ← ht k' hkk]
    apply option_int_ext
    intro v
    rw [hinv.get_iff, t2.get_iff]
    constructor
    · rintro ⟨i, hi, he⟩
      change upd t.dense p ((t.dense p).1, f (t.dense p).2) i = (k', v) at he
      have hip : i ≠ p := by
        rintro rfl
        rw [upd_same] at he
        apply hkk
        rw [← hpk]
        exact (congrArg Prod.fst he).symm
      rw [upd_ne _ _ hip] at he
      exact ⟨i, hi, he⟩
    · rintro ⟨i, hi, he⟩
      have hip : i ≠ p := by
        rintro rfl
        apply hkk
        rw [← hpk, he]
      exact ⟨i, hi, by
        show upd t.dense p ((t.dense p).1, f (t.dense p).2) i = (k', v)
        rw [upd_ne _ _ hip, he]⟩

theorem SparseMap.remove_ok {s : SparseMap} (h : s.Inv) {k : Nat} (hk : k < s.cap) :
    ∃ s', s.remove? k = some s' ∧ s'.Inv ∧ s'.cap = s.cap ∧ s'.get? = upd s.get? k none := by
  unfold SparseMap.remove?
  rw [if_neg (by omega)]
  by_cases hc : s.contains k = true
  · rw [if_pos hc]
    obtain ⟨p, hp, hpk⟩ := (h.contains_iff k).1 hc
    have hback := h.back p hp
    rw [hpk] at hback
    simp only [hback]
    obtain ⟨last, hlast⟩ : ∃ l, s.size = l + 1 := ⟨s.size - 1, by omega⟩
    rw [show s.size - 1 = last by omega]
    -- the new dense array
    have hd : ∀ i, i < last → (upd (upd s.dense p (s.dense last)) last (s.dense p)) i =
        if i = p then s.dense last else s.dense i := by
      intro i hi
      rw [upd_ne _ _ (by omega)]
      rfl
    have hdp : ((upd (upd s.dense p (s.dense last)) last (s.dense p)) p).1 = (s.dense last).1 := by
      by_cases hpl : p = last
      · subst hpl; rw [upd_same]
      · rw [upd_ne _ _ hpl, upd_same]
    rw [hdp]
    have hinv : SparseMap.Inv { s with
        dense := upd (upd s.dense p (s.dense last)) last (s.dense p)
        sparse := upd s.sparse (s.dense last).1 p, size := last } := by
      refine ⟨?_, ?_⟩ <;> intro i hi <;> (have hi' : i < last := hi)
      · show upd s.sparse (s.dense last).1 p
          (upd (upd s.dense p (s.dense last)) last (s.dense p) i).1 = i
        rw [hd i hi']
        by_cases hip : i = p
        · rw [if_pos hip, upd_same, hip]
        · rw [if_neg hip, upd_ne _ _ (fun he => ?_), h.back i (by omega)]
          have := h.inj (show i < s.size by omega) (show last < s.size by omega) he
          omega
      · show (upd (upd s.dense p (s.dense last)) last (s.dense p) i).1 < s.cap
        rw [hd i hi']
        split
        · exact h.key last (by omega)
        · exact h.key i (by omega)
    refine ⟨_, rfl, hinv, rfl, ?_⟩
    funext k'
    apply option_int_ext
    intro v
    rw [hinv.get_iff]
    by_cases hkk : k' = k
    · subst hkk
      rw [upd_same]
      simp only [reduceCtorEq, iff_false]
      rintro ⟨i, hi, he⟩
      have hi' : i < last := hi
      change upd (upd s.dense p (s.dense last)) last (s.dense p) i = (k', v) at he
      rw [hd i hi'] at he
      split at he
      · rename_i hip
        have h1 : (s.dense last).1 = (s.dense p).1 := by rw [he, hpk]
        have := h.inj (show last < s.size by omega) hp h1
        omega
      · rename_i hip
        have h1 : (s.dense i).1 = (s.dense p).1 := by rw [he, hpk]
        exact hip (h.inj (show i < s.size by omega) hp h1)
    · rw [upd_ne _ _ hkk, h.get_iff]
      constructor
      · rintro ⟨i, hi, he⟩
        have hi' : i < last := hi
        change upd (upd s.dense p (s.dense last)) last (s.dense p) i = (k', v) at he
        rw [hd i hi'] at he
        split at he
        · exact ⟨last, by omega, he⟩
        · exact ⟨i, by omega, he⟩
      · rintro ⟨i, hi, he⟩
        have hip : i ≠ p := by
          rintro rfl
          apply hkk
          rw [← hpk, he]
        by_cases hil : i = last
        · subst hil
          refine ⟨p, show p < i by omega, ?_⟩
          show upd (upd s.dense p (s.dense i)) i (s.dense p) p = _
          rw [hd p (by omega), if_pos rfl, he]
        · refine ⟨i, show i < last by omega, ?_⟩
          show upd (upd s.dense p (s.dense last)) last (s.dense p) i = _
          rw [hd i (by omega), if_neg hip, he]
  · rw [if_neg hc]
    refine ⟨s, rfl, h, rfl, ?_⟩
    have hg : s.get? k = none := by unfold SparseMap.get?; rw [if_neg hc]
    funext k'
    by_cases hkk : k' = k
    · subst hkk; rw [upd_same, hg]
    · rw [upd_ne _ _ hkk]

theorem SparseMap.clear_ok (s : SparseMap) : s.clear.Inv ∧ s.clear.get? = fun _ => none := by
  have hinv : s.clear.Inv := ⟨fun i hi => absurd hi (Nat.not_lt_zero i),
    fun i hi => absurd hi (Nat.not_lt_zero i)⟩
  refine ⟨hinv, ?_⟩
  funext k
  apply option_int_ext
  intro v
  rw [hinv.get_iff]
  simp only [reduceCtorEq, iff_false]
  rintro ⟨i, hi, _⟩
  exact absurd hi (Nat.not_lt_zero i)

/-! ## FastResetArray -/

structure FastResetArray.Inv (s : FastResetArray) (m : Content) : Prop where
  data : ∀ k, s.data k = (m k).getD 0
  used : ∀ k, k ∈ s.used ↔ m k ≠ none

theorem FastResetArray.foldl_upd (used : List Nat) : ∀ (d : Nat → Int) (k : Nat),
    used.foldl (fun d p => upd d p 0) d k = if k ∈ used then 0 else d k := by
  induction used with
  | nil => intro d k; simp
  | cons a used ih =>
    intro d k
    rw [List.foldl_cons, ih]
    by_cases h : k ∈ used
    · simp [h]
    · by_cases hka : k = a
      · subst hka; simp [upd_same]
      · simp [h, hka, upd_ne]

theorem FastResetArray.modify_ok {s : FastResetArray} {m : Content} (h : s.Inv m) {k : Nat}
    (hk : k < s.cap) (f : Int → Int) :
    ∃ s', s.modify? k f = some s' ∧ s'.Inv (upd m k (some (f ((m k).getD 0)))) ∧
      s'.cap = s.cap := by
  unfold FastResetArray.modify?
  rw [if_neg (by omega)]
  refine ⟨_, rfl, ⟨?_, ?_⟩, rfl⟩
  · intro k'
    show upd s.data k (f (s.data k)) k' = _
    by_cases hkk : k' = k
    · subst hkk; rw [upd_same, upd_same, h.data]; rfl
    · rw [upd_ne _ _ hkk, upd_ne _ _ hkk, h.data]
  · intro k'
    show k' ∈ (if s.data k = 0 then s.used ++ [k] else s.used) ↔ _
    by_cases hkk : k' = k
    · subst hkk
      rw [upd_same]
      simp only [ne_eq, reduceCtorEq, not_false_eq_true, iff_true]
      split
      · simp
      · rename_i hne
        rw [h.used]
        intro hn
        rw [h.data, hn] at hne
        exact hne rfl
    · rw [upd_ne _ _ hkk, ← h.used]
      split
      · simp [hkk]
      · rfl

theorem FastResetArray.clear_ok {s : FastResetArray} {m : Content} (h : s.Inv m) :
    s.clear = FastResetArray.new s.cap := by
  unfold FastResetArray.clear FastResetArray.new
  have : s.used.foldl (fun d p => upd d p 0) s.data = fun _ => (0 : Int) := by
    funext k
    rw [foldl_upd]
    split
    · rfl
    · rename_i hk
      rw [h.used] at hk
      rw [h.data]
      cases hm : m k with
      | none => rfl
      | some v => rw [hm] at hk; simp at hk
  rw [this]

/-! ## FixedSizeSparseMap -/

/-- Start of the search. -/
def FixedMap.start (s : FixedMap) (k : Nat) : Nat := murmur64 k % s.mapSize

structure FixedMap.Inv (s : FixedMap) : Prop where
  pos : 0 < s.mapSize
  probing : Probing s.slot s.mapSize s.start
  stamp : ∀ i, (s.sparse i).2 ≤ s.timestamp
  lt : ∀ p, p < s.mapSize → (s.sparse p).2 = s.timestamp → (s.sparse p).1 < s.size
  back : ∀ i, i < s.size → ∃ p, p < s.mapSize ∧ s.sparse p = (i, s.timestamp)
  inj : ∀ i j, i < s.size → j < s.size → (s.dense i).1 = (s.dense j).1 → i = j

theorem FixedMap.slot_eq_some {s : FixedMap} {p k : Nat} :
    s.slot p = some k ↔ (s.sparse p).2 = s.timestamp ∧ (s.dense (s.sparse p).1).1 = k := by
  unfold FixedMap.slot
  split <;> simp [*]

theorem FixedMap.slot_ne_none {s : FixedMap} {p : Nat} :
    s.slot p ≠ none ↔ (s.sparse p).2 = s.timestamp := by
  unfold FixedMap.slot
  split <;> simp [*]

/-- The dense position of a key determines its slot. -/
theorem FixedMap.Inv.slot_inj {s : FixedMap} (h : s.Inv) {p q : Nat} (hp : p < s.mapSize)
    (hq : q < s.mapSize) (h1 : (s.sparse p).2 = s.timestamp) (h2 : (s.sparse q).2 = s.timestamp)
    (he : (s.sparse p).1 = (s.sparse q).1) : p = q := by
  refine h.probing.uniq p q _ hp hq (slot_eq_some.2 ⟨h1, rfl⟩) (slot_eq_some.2 ⟨h2, ?_⟩)
  rw [he]

theorem FixedMap.Inv.has_empty {s : FixedMap} (h : s.Inv) (hsz : s.size < s.mapSize) :
    ∃ i, i < s.mapSize ∧ s.slot i = none := by
  refine exists_empty (fun p => (s.sparse p).1) hsz ?_ ?_
  · intro p hp hs
    exact h.lt p hp (slot_ne_none.1 hs)
  · intro p q hp hq h1 h2 he
    exact h.slot_inj hp hq (slot_ne_none.1 h1) (slot_ne_none.1 h2) he

/-- What the map contains. -/
def FixedMap.abs (s : FixedMap) : Content := fun k =>
  ((List.range s.size).find? fun i => (s.dense i).1 == k).map fun i => (s.dense i).2

theorem FixedMap.Inv.abs_iff {s : FixedMap} (h : s.Inv) (k : Nat) (v : Int) :
    s.abs k = some v ↔ ∃ i, i < s.size ∧ s.dense i = (k, v) := by
  unfold FixedMap.abs
  rw [Option.map_eq_some_iff]
  constructor
  · rintro ⟨i, hi, hv⟩
    have h1 := List.find?_some hi
    have h2 := List.mem_of_find?_eq_some hi
    exact ⟨i, List.mem_range.1 h2, Prod.ext (by simpa using h1) hv⟩
  · rintro ⟨i, hi, he⟩
    cases hf : (List.range s.size).find? fun i => (s.dense i).1 == k with
    | none =>
      have := List.find?_eq_none.1 hf i (List.mem_range.2 hi)
      rw [he] at this
      simp at this
    | some j =>
      have h1 := List.find?_some hf
      have h2 := List.mem_of_find?_eq_some hf
      have : j = i := h.inj j i (List.mem_range.1 h2) hi (by rw [he]; simpa using h1)
      subst this
      exact ⟨j, rfl, by rw [he]⟩

theorem FixedMap.Inv.find_spec {s : FixedMap} (h : s.Inv) (hsz : s.size < s.mapSize) (k : Nat) :
    ∃ p b, s.find? k = some (p, b) ∧ p < s.mapSize ∧
      (b = true → (s.sparse p).2 = s.timestamp ∧ (s.dense (s.sparse p).1).1 = k ∧
        s.abs k = some (s.dense (s.sparse p).1).2) ∧
      (b = false → s.slot p = none ∧ s.abs k = none ∧
        ∀ i, i < s.size → (s.dense i).1 ≠ k) := by
  obtain ⟨p, b, h1, h2, h3, h4⟩ := h.probing.probe_iff (h.has_empty hsz) k
  refine ⟨p, b, h1, h2, ?_, ?_⟩
  · intro hb
    obtain ⟨h5, h6⟩ := slot_eq_some.1 (h3 hb)
    exact ⟨h5, h6, (h.abs_iff _ _).2 ⟨_, h.lt p h2 h5, by rw [← h6]⟩⟩
  · intro hb
    have hno : ∀ i, i < s.size → (s.dense i).1 ≠ k := by
      intro i hi he
      obtain ⟨q, hq, hsq⟩ := h.back i hi
      exact (h4 hb).2 q hq (slot_eq_some.2 (by rw [hsq]; exact ⟨rfl, he⟩))
    refine ⟨(h4 hb).1, ?_, hno⟩
    cases ha : s.abs k with
    | none => rfl
    | some v =>
      obtain ⟨i, hi, he⟩ := (h.abs_iff k v).1 ha
      exact absurd (by rw [he]) (hno i hi)

theorem FixedMap.get_ok {s : FixedMap} (h : s.Inv) (hsz : s.size < s.mapSize) (k : Nat) :
    s.contains? k = some (s.abs k).isSome ∧ s.get? k = s.abs k := by
  obtain ⟨p, b, h1, _, h3, h4⟩ := h.find_spec hsz k
  unfold FixedMap.contains? FixedMap.get?
  rw [h1]
  cases b with
  | true =>
    obtain ⟨_, _, h5⟩ := h3 rfl
    rw [h5]
    exact ⟨rfl, rfl⟩
  | false =>
    obtain ⟨_, h5, _⟩ := h4 rfl
    rw [h5]
    exact ⟨rfl, rfl⟩

theorem FixedMap.modify_ok {init : Int} {s : FixedMap} (h : s.Inv) (hsz : s.size < s.mapSize)
    (k : Nat) (f : Int → Int) :
    ∃ s', s.modify? init k f = some s' ∧ s'.Inv ∧ s'.mapSize = s.mapSize ∧
      s'.abs = upd s.abs k (some (f ((s.abs k).getD init))) := by
  obtain ⟨p, b, h1, h2, h3, h4⟩ := h.find_spec hsz k
  unfold FixedMap.modify?
  rw [h1]
  simp only [Option.bind_eq_bind, Option.bind_some]
  cases b with
  | true =>
    obtain ⟨h5, h6, h7⟩ := h3 rfl
    rw [if_pos rfl]
    obtain ⟨j, hj⟩ : ∃ j, (s.sparse p).1 = j := ⟨_, rfl⟩
    rw [hj] at h6 h7 ⊢
    have hjs : j < s.size := hj ▸ h.lt p h2 h5
    have hkey : ∀ i, (upd s.dense j ((s.dense j).1, f (s.dense j).2) i).1 = (s.dense i).1 := by
      intro i
      by_cases hi : i = j
      · subst hi; rw [upd_same]
      · rw [upd_ne _ _ hi]
    have hinv : FixedMap.Inv
        { s with dense := upd s.dense j ((s.dense j).1, f (s.dense j).2) } := by
      refine ⟨h.pos, h.probing.congr ?_, h.stamp, h.lt, h.back, ?_⟩
      · intro i _
        unfold FixedMap.slot
        simp only [hkey]
      · intro a b ha hb hab
        change (upd s.dense j _ a).1 = (upd s.dense j _ b).1 at hab
        rw [hkey, hkey] at hab
        exact h.inj a b ha hb hab
    refine ⟨_, rfl, hinv, rfl, ?_⟩
    funext k'
    apply option_int_ext
    intro v
    rw [hinv.abs_iff]
    by_cases hkk : k' = k
    · subst hkk
      rw [upd_same, h7]
      simp only [Option.getD_some, Option.some.injEq]
      constructor
      · rintro ⟨i, hi, he⟩
        change upd s.dense j ((s.dense j).1, f (s.dense j).2) i = (k', v) at he
        have hij : i = j := by
          have h8 := hkey i
          rw [he] at h8
          exact h.inj i j hi hjs (by rw [h6]; exact h8.symm)
        rw [hij, upd_same] at he
        exact congrArg Prod.snd he
      · rintro rfl
        exact ⟨j, hjs, by
          show upd s.dense j ((s.dense j).1, f (s.dense j).2) j = _
          rw [upd_same, h6]⟩
    · rw [upd_ne _ _ hkk, h.abs_iff]
      constructor
      · rintro ⟨i, hi, he⟩
        change upd s.dense j ((s.dense j).1, f (s.dense j).2) i = (k', v) at he
        have hij : i ≠ j := by
          rintro rfl
          rw [upd_same] at he
          exact hkk (by rw [← h6]; exact (congrArg Prod.fst he).symm)
        rw [upd_ne _ _ hij] at he
        exact ⟨i, hi, he⟩
      · rintro ⟨i, hi, he⟩
        have hij : i ≠ j := by
          rintro rfl
          exact hkk (by rw [← h6, he])
        exact ⟨i, hi, by
          show upd s.dense j ((s.dense j).1, f (s.dense j).2) i = _
          rw [upd_ne _ _ hij, he]⟩
  | false =>
    obtain ⟨h5, h6, h7⟩ := h4 rfl
    rw [if_neg (by simp), if_neg (by omega)]
    have hslot : ∀ i, i < s.mapSize → FixedMap.slot { s with
        dense := upd s.dense s.size (k, f init)
        sparse := upd s.sparse p (s.size, s.timestamp)
        size := s.size + 1 } i = upd s.slot p (some k) i := by
      intro i hi
      unfold FixedMap.slot
      by_cases hip : i = p
      · subst hip
        simp [upd_same]
      · simp only [upd_ne _ _ hip]
        by_cases ht : (s.sparse i).2 = s.timestamp
        · rw [if_pos ht, if_pos ht]
          have := h.lt i hi ht
          rw [upd_ne _ _ (by omega)]
        · rw [if_neg ht, if_neg ht]
    have hinv : FixedMap.Inv { s with
        dense := upd s.dense s.size (k, f init)
        sparse := upd s.sparse p (s.size, s.timestamp)
        size := s.size + 1 } := by
      refine ⟨h.pos, (h.probing.insert (h.has_empty hsz) h1).congr hslot, ?_, ?_, ?_, ?_⟩
      · intro i
        show (upd s.sparse p (s.size, s.timestamp) i).2 ≤ s.timestamp
        by_cases hip : i = p
        · subst hip; rw [upd_same]; exact Nat.le_refl _
        · rw [upd_ne _ _ hip]; exact h.stamp i
      · intro i hi
        show (upd s.sparse p (s.size, s.timestamp) i).2 = s.timestamp →
          (upd s.sparse p (s.size, s.timestamp) i).1 < s.size + 1
        by_cases hip : i = p
        · subst hip; rw [upd_same]; intro _; exact Nat.lt_succ_self _
        · rw [upd_ne _ _ hip]; intro ht; exact Nat.lt_succ_of_lt (h.lt i hi ht)
      · intro i hi
        have hi' : i < s.size + 1 := hi
        by_cases his : i = s.size
        · exact ⟨p, h2, by show upd s.sparse p (s.size, s.timestamp) p = _; rw [upd_same, his]⟩
        · obtain ⟨q, hq, hsq⟩ := h.back i (by omega)
          refine ⟨q, hq, ?_⟩
          show upd s.sparse p (s.size, s.timestamp) q = _
          rw [upd_ne _ _ (fun hqp => ?_), hsq]
          subst hqp
          have : s.slot q ≠ none := slot_ne_none.2 (by rw [hsq])
          exact this h5
      · intro a b ha hb hab
        have ha' : a < s.size + 1 := ha
        have hb' : b < s.size + 1 := hb
        change (upd s.dense s.size (k, f init) a).1 = (upd s.dense s.size (k, f init) b).1 at hab
        by_cases h8 : a = s.size <;> by_cases h9 : b = s.size
        · omega
        · rw [h8, upd_same, upd_ne _ _ h9] at hab
          exact absurd hab.symm (h7 b (by omega))
        · rw [h9, upd_same, upd_ne _ _ h8] at hab
          exact absurd hab (h7 a (by omega))
        · rw [upd_ne _ _ h8, upd_ne _ _ h9] at hab
          exact h.inj a b (by omega) (by omega) hab
    refine ⟨_, rfl, hinv, rfl, ?_⟩
    rw [h6]
    funext k'
    apply option_int_ext
    intro v
    rw [hinv.abs_iff]
    by_cases hkk : k' = k
    · subst hkk
      rw [upd_same]
      simp only [Option.getD_none, Option.some.injEq]
      constructor
      · rintro ⟨i, hi, he⟩
        have hi' : i < s.size + 1 := hi
        change upd s.dense s.size (k', f init) i = (k', v) at he
        by_cases his : i = s.size
        · rw [his, upd_same] at he
          exact congrArg Prod.snd he
        · rw [upd_ne _ _ his] at he
          exact absurd (by rw [he]) (h7 i (by omega))
      · rintro rfl
        exact ⟨s.size, Nat.lt_succ_self _, upd_same ..⟩
    · rw [upd_ne _ _ hkk, h.abs_iff]
      constructor
      · rintro ⟨i, hi, he⟩
        have hi' : i < s.size + 1 := hi
        change upd s.dense s.size (k, f init) i = (k', v) at he
        by_cases his : i = s.size
        · rw [his, upd_same] at he
          exact absurd (congrArg Prod.fst he).symm hkk
        · rw [upd_ne _ _ his] at he
          exact ⟨i, by omega, he⟩
      · rintro ⟨i, hi, he⟩
        exact ⟨i, Nat.lt_succ_of_lt hi, by
          show upd s.dense s.size (k, f init) i = _
          rw [upd_ne _ _ (by omega), he]⟩

theorem FixedMap.clear_ok {s : FixedMap} (h : s.Inv) : s.clear.Inv ∧
    s.clear.abs = fun _ => none := by
  have hno : ∀ i, s.clear.slot i = none := by
    intro i
    unfold FixedMap.slot FixedMap.clear
    have := h.stamp i
    rw [if_neg (show ¬ (s.sparse i).2 = s.timestamp + 1 by omega)]
  refine ⟨⟨h.pos, (Probing.empty s.mapSize s.start h.probing.start).congr fun i _ => hno i, ?_, ?_,
    ?_, ?_⟩, rfl⟩
  · intro i
    exact Nat.le_succ_of_le (h.stamp i)
  · intro p _ hp
    have := h.stamp p
    have hp' : (s.sparse p).2 = s.timestamp + 1 := hp
    omega
  · intro i hi; exact absurd hi (Nat.not_lt_zero i)
  · intro i j hi; exact absurd hi (Nat.not_lt_zero i)

theorem FixedMap.new_ok {M : Nat} (hM : 0 < M) : (FixedMap.new M).Inv ∧
    (FixedMap.new M).abs = fun _ => none := by
  refine ⟨⟨hM, (Probing.empty M _ fun k => Nat.mod_lt _ hM).congr fun i _ => rfl, ?_, ?_, ?_, ?_⟩,
    rfl⟩
  · intro i; exact Nat.zero_le _
  · intro p _ hp
    have hp' : (0 : Nat) = 1 := hp
    omega
  · intro i hi; exact absurd hi (Nat.not_lt_zero i)
  · intro i j hi; exact absurd hi (Nat.not_lt_zero i)

/-- The number of elements is the number of keys. -/
theorem FixedMap.Inv.size_le {s : FixedMap} (h : s.Inv) {n : Nat} (hn : AtMost n s.abs) :
    s.size ≤ n := by
  obtain ⟨keys, hk1, hk2⟩ := hn
  have hnd : ((List.range s.size).map fun i => (s.dense i).1).Nodup := by
    refine nodup_map_on List.nodup_range ?_
    intro a ha b hb hab
    exact h.inj a b (List.mem_range.1 ha) (List.mem_range.1 hb) hab
  have := nodup_length_le hnd (m := keys) (by
    intro x hx
    obtain ⟨i, hi, rfl⟩ := List.mem_map.1 hx
    apply hk2
    rw [(h.abs_iff _ _).2 ⟨i, List.mem_range.1 hi, rfl⟩]
    simp)
  simp at this
  omega

end Verif.Maps
