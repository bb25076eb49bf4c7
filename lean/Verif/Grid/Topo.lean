import Verif.Grid.Model
import Mathlib.Tactic.Ring
import Mathlib.Data.List.Nodup

/-! # The grid: every rank has a row and a column -/

namespace Verif.Grid

theorem sq_pos {N : Nat} (h : 0 < N) : 0 < sq N := Nat.sqrt_pos.2 h

/-- Rows, full columns and ranks in the partial column. -/
theorem size_eq (N : Nat) : N = sq N * numFullCols N + partialCol N := by
  have : sq N * numFullCols N ≤ N := Nat.mul_div_le N (sq N)
  unfold partialCol
  omega

theorem partial_lt {N : Nat} (h : 0 < N) : partialCol N < sq N := by
  have : partialCol N = N % sq N := by
    have h1 := Nat.div_add_mod N (sq N)
    unfold partialCol numFullCols
    omega
  rw [this]
  exact Nat.mod_lt _ (sq_pos h)

theorem sq_le_full {N : Nat} (h : 0 < N) : sq N ≤ numFullCols N :=
  (Nat.le_div_iff_mul_le (sq_pos h)).2 (Nat.sqrt_le N)

theorem numCols_eq {N : Nat} (h : 0 < N) : numCols N = numFullCols N + if partialCol N = 0 then 0 else 1 := by
  have h1 := size_eq N
  have h2 := partial_lt h
  have h3 := sq_pos h
  unfold numCols
  by_cases e : partialCol N = 0
  · rw [if_pos e]
    rw [e] at h1
    have : N + sq N - 1 = (sq N - 1) + sq N * numFullCols N := by omega
    rw [this, Nat.add_mul_div_left _ _ h3, Nat.div_eq_of_lt (by omega)]
    omega
  · rw [if_neg e]
    have : N + sq N - 1 = (partialCol N - 1) + sq N * (numFullCols N + 1) := by rw [Nat.mul_add, Nat.mul_one]; omega
    rw [this, Nat.add_mul_div_left _ _ h3, Nat.div_eq_of_lt (by omega)]
    omega

theorem rowSize_eq {N : Nat} (h : 0 < N) (r : Nat) : rowSize N r = numColsInRow N r := by
  unfold rowSize numColsInRow
  rw [numCols_eq h]
  by_cases e : r < partialCol N
  · rw [if_pos e, if_pos e, if_neg (by omega)]
  · rw [if_neg e, if_neg e]; rfl

/-- The rank in a row and column. -/
def rankAt (N r c : Nat) : Nat := r * numFullCols N + min r (partialCol N) + c

theorem rankAt_lt {N r c : Nat} (h : 0 < N) (hr : r < sq N) (hc : c < numColsInRow N r) : rankAt N r c < N := by
  have h1 := size_eq N
  have h2 := partial_lt h
  have h3 : (r + 1) * numFullCols N ≤ sq N * numFullCols N := Nat.mul_le_mul_right _ hr
  rw [Nat.add_mul, Nat.one_mul] at h3
  unfold rankAt
  unfold numColsInRow at hc
  split at hc <;> omega

theorem full_pos {N : Nat} (h : 0 < N) : 0 < numFullCols N := Nat.lt_of_lt_of_le (sq_pos h) (sq_le_full h)

theorem row_col_at {N r c : Nat} (h : 0 < N) (hr : r < sq N) (hc : c < numColsInRow N r) :
    row N (rankAt N r c) = r ∧ col N (rankAt N r c) = c := by
  have hlt := rankAt_lt h hr hc
  have hf := full_pos h
  unfold row col fullRect
  unfold numColsInRow at hc
  by_cases e : partialCol N = 0
  · rw [if_pos e, if_pos hlt, if_pos hlt, numCols_eq h, if_pos e]
    unfold rankAt
    rw [e] at hc ⊢
    rw [if_neg (by omega), Nat.add_zero] at hc
    rw [Nat.min_zero, Nat.add_zero, Nat.add_zero, Nat.add_comm, Nat.add_mul_div_right _ _ hf, Nat.div_eq_of_lt hc,
      Nat.add_mul_mod_self_right, Nat.mod_eq_of_lt hc]
    omega
  · rw [if_neg e, numCols_eq h, if_neg e]
    by_cases hp : r < partialCol N
    · rw [if_pos hp] at hc
      have he : rankAt N r c = c + r * (numFullCols N + 1) := by unfold rankAt; rw [Nat.mul_add]; omega
      have hl : rankAt N r c < (numFullCols N + 1) * partialCol N := by
        have : (r + 1) * (numFullCols N + 1) ≤ partialCol N * (numFullCols N + 1) := Nat.mul_le_mul_right _ hp
        rw [Nat.add_mul, Nat.one_mul] at this
        rw [he, Nat.mul_comm _ (partialCol N)]
        omega
      rw [if_pos hl, if_pos hl, he, Nat.add_mul_div_right _ _ (by omega), Nat.div_eq_of_lt hc, Nat.add_mul_mod_self_right,
        Nat.mod_eq_of_lt hc]
      omega
    · rw [if_neg hp] at hc
      obtain ⟨d, rfl⟩ : ∃ d, r = partialCol N + d := ⟨r - partialCol N, by omega⟩
      have he : rankAt N (partialCol N + d) c = (numFullCols N + 1) * partialCol N + (c + d * numFullCols N) := by
        unfold rankAt
        rw [Nat.min_eq_right (by omega)]
        ring
      rw [he, if_neg (by omega), if_neg (by omega), Nat.add_sub_cancel_left, Nat.add_mul_div_right _ _ hf,
        Nat.div_eq_of_lt (by omega), Nat.add_mul_mod_self_right, Nat.mod_eq_of_lt (by omega)]
      omega

/-- The ranks are numbered row by row. -/
theorem range_rows {N : Nat} (h : 0 < N) :
    List.range N = (List.range (sq N)).flatMap fun r => (List.range (numColsInRow N r)).map (rankAt N r) := by
  have key : ∀ m, m ≤ sq N → List.range (m * numFullCols N + min m (partialCol N)) =
      (List.range m).flatMap fun r => (List.range (numColsInRow N r)).map (rankAt N r) := by
    intro m
    induction m with
    | zero => intro _; simp
    | succ m ih =>
      intro hm
      rw [List.range_succ, List.flatMap_append, ← ih (by omega)]
      have : (m + 1) * numFullCols N + min (m + 1) (partialCol N) = (m * numFullCols N + min m (partialCol N)) + numColsInRow N m := by
        unfold numColsInRow
        rw [Nat.add_mul, Nat.one_mul]
        split <;> omega
      rw [this, List.range_add]
      simp only [List.flatMap_cons, List.flatMap_nil, List.append_nil]
      rfl
  rw [← key _ (le_refl _)]
  congr 1
  have h1 := size_eq N
  have h2 := partial_lt h
  omega

theorem exists_at {N pe : Nat} (h : 0 < N) (hpe : pe < N) : ∃ r c, r < sq N ∧ c < numColsInRow N r ∧ pe = rankAt N r c := by
  have : pe ∈ List.range N := List.mem_range.2 hpe
  rw [range_rows h, List.mem_flatMap] at this
  obtain ⟨r, hr, hm⟩ := this
  obtain ⟨c, hc, rfl⟩ := List.mem_map.1 hm
  exact ⟨r, c, List.mem_range.1 hr, List.mem_range.1 hc, rfl⟩

theorem rankAt_inj {N r c r' c' : Nat} (h : 0 < N) (hr : r < sq N) (hc : c < numColsInRow N r) (hr' : r' < sq N)
    (hc' : c' < numColsInRow N r') (he : rankAt N r c = rankAt N r' c') : r = r' ∧ c = c' := by
  have h1 := row_col_at h hr hc
  have h2 := row_col_at h hr' hc'
  rw [he] at h1
  exact ⟨h1.1.symm.trans h2.1, h1.2.symm.trans h2.2⟩

theorem virtualCol_at {N r c : Nat} (h : 0 < N) (hr : r < sq N) (hc : c < numColsInRow N r) :
    virtualCol N (rankAt N r c) = if c < numFullCols N then c else r := by
  obtain ⟨h1, h2⟩ := row_col_at h hr hc
  unfold virtualCol
  rw [h1, h2]
  by_cases e : c < numFullCols N
  · rw [if_pos (Or.inr e), if_pos e]
  · rw [if_neg e, if_neg]
    rintro (e' | e')
    · unfold numColsInRow at hc
      rw [if_neg (by omega)] at hc
      omega
    · exact e e'

/-! ## The communicators -/

theorem insertionSort_eq {key : Nat → Nat} {l l' : List Nat} (hp : l'.Perm l) (hs : l'.Pairwise fun a b => key a ≤ key b)
    (hinj : ∀ a ∈ l', ∀ b ∈ l', key a = key b → a = b) : l.insertionSort (fun a b => key a ≤ key b) = l' := by
  have : Std.Total fun a b => key a ≤ key b := ⟨fun a b => Nat.le_total _ _⟩
  have : IsTrans Nat fun a b => key a ≤ key b := ⟨fun a b c => Nat.le_trans⟩
  have h1 := List.pairwise_insertionSort (fun a b => key a ≤ key b) l
  have h2 : (l.insertionSort (fun a b => key a ≤ key b)).Perm l' := (List.perm_insertionSort _ _).trans hp.symm
  have : ∀ (x y : List Nat), x.Perm y → x.Pairwise (fun a b => key a ≤ key b) → y.Pairwise (fun a b => key a ≤ key b) →
      (∀ a ∈ y, ∀ b ∈ y, key a = key b → a = b) → x = y := by
    intro x y hxy hx hy hinj
    exact hxy.eq_of_pairwise (fun a b ha hb h1 h2 => hinj a (hxy.mem_iff.1 ha) b hb (Nat.le_antisymm h1 h2)) hx hy
  exact this _ _ h2 h1 hs hinj

/-- The members of a row, from left to right. -/
theorem rowComm_at {N r c : Nat} (h : 0 < N) (hr : r < sq N) (hc : c < numColsInRow N r) :
    rowComm N (rankAt N r c) = (List.range (numColsInRow N r)).map (rankAt N r) := by
  have hlt : ((List.range (numColsInRow N r)).map (rankAt N r)).Pairwise (· < ·) := by
    refine List.Pairwise.map _ (R := (· < ·)) (fun a b hab => ?_) List.pairwise_lt_range
    unfold rankAt
    omega
  unfold rowComm split
  refine insertionSort_eq (key := fun x => x) ?_ (hlt.imp fun h => Nat.le_of_lt h) fun _ _ _ _ h => h
  refine (List.perm_ext_iff_of_nodup (hlt.imp fun h => Nat.ne_of_lt h) (List.nodup_range.filter _)).2 fun pe => ?_
  rw [List.mem_map, List.mem_filter, List.mem_range, decide_eq_true_iff, (row_col_at h hr hc).1]
  constructor
  · rintro ⟨c', hc', rfl⟩
    have hc' := List.mem_range.1 hc'
    exact ⟨rankAt_lt h hr hc', (row_col_at h hr hc').1⟩
  · rintro ⟨hpe, he⟩
    obtain ⟨r', c', hr', hc', rfl⟩ := exists_at h hpe
    rw [(row_col_at h hr' hc').1] at he
    subst he
    exact ⟨c', List.mem_range.2 hc', rfl⟩

/-- The members of a virtual column: those of the full column from top to bottom, and at most one member of the partial column. -/
def members (N v : Nat) : List Nat :=
  (List.range (sq N)).map (fun r => rankAt N r v) ++ if v < partialCol N then [rankAt N v (numFullCols N)] else []

theorem full_le_cols (N r : Nat) : numFullCols N ≤ numColsInRow N r := by unfold numColsInRow; omega

theorem partial_cols {N v : Nat} (hv : v < partialCol N) : numFullCols N < numColsInRow N v := by
  unfold numColsInRow; rw [if_pos hv]; omega

theorem mem_members {N v pe : Nat} (h : 0 < N) (hv : v < numFullCols N) : pe ∈ members N v ↔ pe < N ∧ virtualCol N pe = v := by
  unfold members
  rw [List.mem_append, List.mem_map]
  constructor
  · rintro (⟨r, hr, rfl⟩ | hm)
    · have hr := List.mem_range.1 hr
      have hc := Nat.lt_of_lt_of_le hv (full_le_cols N r)
      exact ⟨rankAt_lt h hr hc, by rw [virtualCol_at h hr hc, if_pos hv]⟩
    · split at hm
      · next hp =>
        rw [List.mem_singleton] at hm
        subst hm
        have hr := Nat.lt_trans hp (partial_lt h)
        exact ⟨rankAt_lt h hr (partial_cols hp), by rw [virtualCol_at h hr (partial_cols hp), if_neg (by omega)]⟩
      · exact (nomatch hm)
  · rintro ⟨hpe, he⟩
    obtain ⟨r, c, hr, hc, rfl⟩ := exists_at h hpe
    rw [virtualCol_at h hr hc] at he
    split at he
    · subst he
      exact Or.inl ⟨r, List.mem_range.2 hr, rfl⟩
    · next hcf =>
      subst he
      right
      have : c = numFullCols N ∧ r < partialCol N := by
        unfold numColsInRow at hc
        split at hc
        · exact ⟨by omega, by assumption⟩
        · omega
      rw [if_pos this.2, this.1]
      exact List.mem_singleton.2 rfl

theorem members_nodup {N v : Nat} (h : 0 < N) (hv : v < numFullCols N) : (members N v).Nodup := by
  unfold members
  rw [List.nodup_append]
  refine ⟨?_, by split <;> simp, ?_⟩
  · refine List.Nodup.map_on (fun a ha b hb he => ?_) List.nodup_range
    exact (rankAt_inj h (List.mem_range.1 ha) (Nat.lt_of_lt_of_le hv (full_le_cols N a)) (List.mem_range.1 hb)
      (Nat.lt_of_lt_of_le hv (full_le_cols N b)) he).1
  · intro a ha b hb
    obtain ⟨r, hr, rfl⟩ := List.mem_map.1 ha
    have hr := List.mem_range.1 hr
    split at hb
    · next hp =>
      rw [List.mem_singleton] at hb
      subst hb
      intro he
      have := (rankAt_inj h hr (Nat.lt_of_lt_of_le hv (full_le_cols N r)) (Nat.lt_trans hp (partial_lt h)) (partial_cols hp) he).2
      omega
    · exact (nomatch hb)

theorem colComm_eq {N me : Nat} (h : 0 < N) (hv : virtualCol N me < numFullCols N) : colComm N me = members N (virtualCol N me) := by
  unfold colComm split
  refine insertionSort_eq (key := fun rank => if virtualCol N rank = col N rank then rank else N + rank) ?_ ?_ ?_
  · refine (List.perm_ext_iff_of_nodup (members_nodup h hv) (List.nodup_range.filter _)).2 fun pe => ?_
    rw [mem_members h hv, List.mem_filter, List.mem_range, decide_eq_true_iff]
  · generalize virtualCol N me = v at hv
    have hkey : ∀ r, r < sq N → (if virtualCol N (rankAt N r v) = col N (rankAt N r v) then rankAt N r v else N + rankAt N r v) = rankAt N r v := by
      intro r hr
      have hc := Nat.lt_of_lt_of_le hv (full_le_cols N r)
      rw [virtualCol_at h hr hc, if_pos hv, (row_col_at h hr hc).2, if_pos rfl]
    unfold members
    rw [List.pairwise_append]
    refine ⟨?_, by split <;> simp, ?_⟩
    · rw [List.pairwise_map]
      refine List.Pairwise.imp_of_mem (fun ha hb hab => ?_) List.pairwise_lt_range
      rw [hkey _ (List.mem_range.1 ha), hkey _ (List.mem_range.1 hb)]
      unfold rankAt
      have := Nat.mul_le_mul_right (numFullCols N) (Nat.le_of_lt hab)
      omega
    · intro a ha b hb
      obtain ⟨r, hr, rfl⟩ := List.mem_map.1 ha
      have hr := List.mem_range.1 hr
      rw [hkey r hr]
      split at hb
      · next hp =>
        rw [List.mem_singleton] at hb
        subst hb
        have hr' := Nat.lt_trans hp (partial_lt h)
        rw [virtualCol_at h hr' (partial_cols hp), (row_col_at h hr' (partial_cols hp)).2, if_neg (Nat.lt_irrefl _), if_neg (Nat.ne_of_lt hv)]
        have := rankAt_lt h hr (Nat.lt_of_lt_of_le hv (full_le_cols N r))
        omega
      · exact (nomatch hb)
  · intro a ha b hb he
    have ha := ((mem_members h hv).1 ha).1
    have hb := ((mem_members h hv).1 hb).1
    split at he <;> split at he <;> omega

theorem virtualCol_lt {N pe : Nat} (h : 0 < N) (hpe : pe < N) : virtualCol N pe < numFullCols N := by
  obtain ⟨r, c, hr, hc, rfl⟩ := exists_at h hpe
  rw [virtualCol_at h hr hc]
  split
  · assumption
  · exact Nat.lt_of_lt_of_le hr (sq_le_full h)

theorem members_length (N v : Nat) : (members N v).length = virtualColSize N v := by
  unfold members virtualColSize
  rw [List.length_append, List.length_map, List.length_range]
  split <;> rfl

theorem virtualElement_eq {N r v : Nat} (h : 0 < N) (hr : r < virtualColSize N v) : (members N v)[r]? = some (virtualElement N r v) := by
  have hp := partial_lt h
  unfold virtualElement members
  by_cases hlt : r < sq N
  · rw [List.getElem?_append_left (by simpa using hlt), List.getElem?_map, List.getElem?_range hlt, Option.map_some]
    congr 1
    unfold rankAt
    by_cases e : r < partialCol N
    · rw [if_pos e, numCols_eq h, if_neg (by omega), Nat.mul_add]; omega
    · rw [if_neg e, if_pos (show r < numRows N from hlt)]; omega
  · unfold virtualColSize at hr
    have hv : v < partialCol N := by
      by_contra hv
      rw [if_neg hv] at hr
      omega
    rw [if_pos hv] at hr ⊢
    rw [List.getElem?_append_right (by simpa using hlt), if_neg (by omega), if_neg (show ¬ r < numRows N from hlt), numCols_eq h,
      if_neg (by omega)]
    have : r - (List.map (fun r => rankAt N r v) (List.range (sq N))).length = 0 := by
      rw [List.length_map, List.length_range]; omega
    rw [this]
    show some (rankAt N v (numFullCols N)) = _
    congr 1
    unfold rankAt
    rw [Nat.min_eq_left (Nat.le_of_lt hv), Nat.add_mul, Nat.mul_comm v]
    omega

theorem members_virtualElement {N v : Nat} (h : 0 < N) :
    members N v = (List.range (virtualColSize N v)).map fun r => virtualElement N r v := by
  refine List.ext_getElem? fun i => ?_
  by_cases hi : i < virtualColSize N v
  · rw [virtualElement_eq h hi, List.getElem?_map, List.getElem?_range hi]; rfl
  · rw [List.getElem?_eq_none (by rw [members_length]; omega), List.getElem?_eq_none (by simpa using hi)]

/-- Every rank is in one virtual column. -/
theorem members_perm {N : Nat} (h : 0 < N) : ((List.range (numFullCols N)).flatMap (members N)).Perm (List.range N) := by
  refine (List.perm_ext_iff_of_nodup ?_ List.nodup_range).2 fun pe => ?_
  · rw [List.nodup_flatMap]
    refine ⟨fun v hv => members_nodup h (List.mem_range.1 hv), ?_⟩
    refine List.Pairwise.imp_of_mem (fun ha hb hab => ?_) List.pairwise_lt_range
    intro pe h1 h2
    have h1 := ((mem_members h (List.mem_range.1 ha)).1 h1).2
    have h2 := ((mem_members h (List.mem_range.1 hb)).1 h2).2
    omega
  · rw [List.mem_flatMap, List.mem_range]
    constructor
    · rintro ⟨v, hv, hm⟩
      exact ((mem_members h (List.mem_range.1 hv)).1 hm).1
    · intro hpe
      have hv := virtualCol_lt h hpe
      exact ⟨virtualCol N pe, List.mem_range.2 hv, (mem_members h hv).2 ⟨hpe, rfl⟩⟩

end Verif.Grid
