import Verif.Dist.ContractNodes

/-!
# The mapping of clusters to coarse nodes, for the proof of C73
-/

namespace Verif.Dist
open Verif.Math

variable {C : Nat → Nat} {dist : List Nat} {inp : Nat → Input} {g : Nat → DGraph} {lab : Nat → List Nat} {S : Nat → Orders}

/-- The array `lcluster_to_lcnode` of process `q`. -/
def lcs (dist : List Nat) (C : Nat → Nat) (q : Nat) : List Nat :=
  (List.range (localN dist q)).map fun i => pred32 ((List.range (i + 1)).countP fun j => used C (globalN dist) (first dist q + j))

/-- The number of coarse nodes of process `q`. -/
def cnum (dist : List Nat) (C : Nat → Nat) (q : Nat) : Nat := (List.range (localN dist q)).countP fun j => used C (globalN dist) (first dist q + j)

/-- The number of a cluster. -/
abbrev cnode (dist : List Nat) (C : Nat → Nat) (c : Nat) : Nat := num C (globalN dist) c

/-- The distribution of the coarse nodes. -/
def cdistOf (dist : List Nat) (C : Nat → Nat) : List Nat := (List.range (procs dist + 1)).map fun q => cnode dist C (first dist q)

theorem sum_indicator {P : Nat → Bool} {arr : Nat → Nat} : ∀ {k : Nat}, (∀ i, i < k → arr i = if P i = true then 1 else 0) →
    ((List.range k).map arr).sum = (List.range k).countP P
  | 0, _ => rfl
  | k + 1, h => by
    rw [List.range_succ, List.map_append, List.sum_append, List.countP_append, sum_indicator fun i hi => h i (by omega), List.map_singleton,
      List.sum_singleton, List.countP_singleton, h k (by omega)]

variable (K : Clustered dist inp g lab C)
include K

theorem Clustered.mark {q : Nat} (hq : q < procs dist) {c : Nat} (h1 : first dist q ≤ c) (h2 : c < first dist (q + 1)) (arr : Nat → Nat) :
    mark? (g q) arr c = some (upd arr (c - first dist q) 1) := by
  have hsf := K.world.succ_first hq
  unfold mark?
  rw [K.world.offset hq, Option.bind_some, (K.world.represents q hq).n_eq, if_pos ⟨h1, by omega⟩]

theorem Clustered.markNodes {q : Nat} (hq : q < procs dist) : ∀ (us : List Nat) (arr : Nat → Nat), (∀ u, u ∈ us → u < localN dist q) →
    ∃ arr', us.foldlM (markNode? (g q) (lab q)) arr = some arr' ∧ ∀ i, i < localN dist q →
      arr' i = if first dist q + i ∈ us.map fun u => C (first dist q + u) then 1 else arr i
  | [], arr, _ => ⟨arr, rfl, fun i _ => by rw [List.map_nil, if_neg List.not_mem_nil]⟩
  | u :: us, arr, h => by
    have hu := h u List.mem_cons_self
    have hsf := K.world.succ_first hq
    have hl : u < (g q).totalN := Nat.lt_of_lt_of_le hu (K.world.local_le_total hq)
    have hstep : ∃ arr1, markNode? (g q) (lab q) arr u = some arr1 ∧ ∀ i, i < localN dist q →
        arr1 i = if first dist q + i = C (first dist q + u) then 1 else arr i := by
      unfold markNode?
      rw [K.label hq hl, Option.bind_some, K.world.isOwned hq, Option.bind_some, K.world.glob_own hq hu]
      by_cases ho : first dist q ≤ C (first dist q + u) ∧ C (first dist q + u) < first dist (q + 1)
      · rw [if_pos (by simpa using ho), K.mark hq ho.1 ho.2]
        refine ⟨_, rfl, fun i _ => ?_⟩
        by_cases hi : first dist q + i = C (first dist q + u)
        · rw [if_pos hi, show C (first dist q + u) - first dist q = i by omega, upd_same]
        · rw [if_neg hi, upd_ne _ _ (by omega)]
      · rw [if_neg (by simpa using ho)]
        refine ⟨_, rfl, fun i hi => ?_⟩
        rw [if_neg (by omega)]
    obtain ⟨arr1, h1, h2⟩ := hstep
    obtain ⟨arr2, h3, h4⟩ := Clustered.markNodes hq us arr1 fun x hx => h x (List.mem_cons_of_mem _ hx)
    refine ⟨arr2, by rw [List.foldlM_cons, h1]; exact h3, fun i hi => ?_⟩
    rw [h4 i hi, h2 i hi, List.map_cons]
    by_cases ha : first dist q + i ∈ us.map fun u => C (first dist q + u)
    · rw [if_pos ha, if_pos (List.mem_cons.2 (.inr ha))]
    · rw [if_neg ha]
      by_cases hb : first dist q + i = C (first dist q + u)
      · rw [if_pos hb, if_pos (List.mem_cons.2 (.inl hb))]
      · rw [if_neg hb, if_neg (by rw [List.mem_cons]; rintro (h | h); exacts [hb h, ha h])]

theorem Clustered.markReceived {q : Nat} (hq : q < procs dist) : ∀ (l : List (Nat × Int)) (arr : Nat → Nat),
    (∀ x, x ∈ l → first dist q ≤ x.1 ∧ x.1 < first dist (q + 1)) → ∃ arr', l.foldlM (fun arr x => mark? (g q) arr x.1) arr = some arr' ∧
      ∀ i, arr' i = if first dist q + i ∈ l.map (·.1) then 1 else arr i
  | [], arr, _ => ⟨arr, rfl, fun i => by rw [List.map_nil, if_neg List.not_mem_nil]⟩
  | x :: l, arr, h => by
    have hx := h x List.mem_cons_self
    obtain ⟨arr2, h3, h4⟩ := Clustered.markReceived hq l (upd arr (x.1 - first dist q) 1) fun x hx => h x (List.mem_cons_of_mem _ hx)
    refine ⟨arr2, by rw [List.foldlM_cons, K.mark hq hx.1 hx.2]; exact h3, fun i => ?_⟩
    rw [h4 i, List.map_cons]
    by_cases ha : first dist q + i ∈ l.map (·.1)
    · rw [if_pos ha, if_pos (List.mem_cons.2 (.inr ha))]
    · rw [if_neg ha]
      by_cases hb : first dist q + i = x.1
      · rw [if_pos (List.mem_cons.2 (.inl hb)), show x.1 - first dist q = i by omega, upd_same]
      · rw [if_neg (by rw [List.mem_cons]; rintro (h | h); exacts [hb h, ha h]), upd_ne _ _ (by omega)]

variable (hS : ∀ p, p < procs dist → (S p).Ok)
include hS

theorem Clustered.mapping {q : Nat} (hq : q < procs dist) : mapping? S (procs dist) g lab q = some (lcs dist C q) := by
  have W := K.world
  obtain ⟨arr1, h1, h2⟩ := K.markNodes hq (List.range (localN dist q)) (fun _ => 0) fun u hu => List.mem_range.1 hu
  obtain ⟨arr2, h3, h4⟩ := K.markReceived hq (got S dist inp g C q) arr1 fun x hx => by
    have h := (K.got_keys hS hq).1 (List.mem_map_of_mem (f := (·.1)) hx)
    exact ⟨h.1, h.2.1⟩
  have harr : ∀ i, i < localN dist q → arr2 i = if used C (globalN dist) (first dist q + i) = true then 1 else 0 := by
    intro i hi
    rw [h4 i, h2 i hi]
    have hu := K.used_local hS hq hi
    by_cases ha : first dist q + i ∈ (got S dist inp g C q).map (·.1)
    · rw [if_pos ha, if_pos (hu.2 (.inr ha))]
    · rw [if_neg ha]
      by_cases hb : first dist q + i ∈ (List.range (localN dist q)).map fun u => C (first dist q + u)
      · rw [if_pos hb]
        obtain ⟨u, hu1, hu2⟩ := List.mem_map.1 hb
        rw [if_pos (hu.2 (.inl ⟨u, List.mem_range.1 hu1, hu2⟩))]
      · rw [if_neg hb, if_neg]
        intro h
        rcases hu.1 h with ⟨u, hu1, hu2⟩ | h
        · exact hb (List.mem_map.2 ⟨u, List.mem_range.2 hu1, hu2⟩)
        · exact ha h
  unfold mapping? lcnodes?
  rw [K.recvNodes hS hq, Option.bind_some, (W.represents q hq).n_eq, h1, Option.bind_some, h3, Option.map_some]
  unfold lcs
  congr 1
  apply List.map_congr_left
  intro i hi
  have hi := List.mem_range.1 hi
  rw [sum_indicator (P := fun j => used C (globalN dist) (first dist q + j)) fun j hj => harr j (by omega)]

omit hS in
theorem Clustered.local_small {q : Nat} (hq : q < procs dist) : localN dist q < 2 ^ 31 :=
  Nat.lt_of_le_of_lt (K.world.local_le_total hq) (K.total_lt hq)

omit hS in
theorem Clustered.cnum_le {q : Nat} : cnum dist C q ≤ localN dist q := by
  have := List.countP_le_length (p := fun j => used C (globalN dist) (first dist q + j)) (l := List.range (localN dist q))
  rw [List.length_range] at this
  exact this

omit hS in
theorem Clustered.coarseN_eq {q : Nat} (hq : q < procs dist) : coarseN (lcs dist C q) = cnum dist C q := by
  have hsm := K.local_small hq
  have hle := K.cnum_le (q := q)
  unfold coarseN lcs cnum
  unfold cnum at hle
  generalize localN dist q = k at hsm hle ⊢
  cases k with
  | zero => rfl
  | succ k =>
    rw [List.getLast?_map, List.getLast?_range, if_neg (by omega), Option.map_some, Nat.add_sub_cancel]
    show (pred32 _ + 1) % 2 ^ 32 = _
    generalize (List.range (k + 1)).countP (fun j => used C (globalN dist) (first dist q + j)) = m at hle ⊢
    unfold pred32
    by_cases h : m = 0
    · rw [if_pos h, h]
    · rw [if_neg h]
      omega

omit hS in
theorem Clustered.cnode_succ {q : Nat} (hq : q < procs dist) : cnode dist C (first dist (q + 1)) = cnode dist C (first dist q) + cnum dist C q := by
  rw [← K.world.succ_first hq, cnode, num_add]
  rfl

omit hS in
theorem Clustered.cnode_first {k : Nat} (hk : k ≤ procs dist) : ((List.range k).map (cnum dist C)).sum = cnode dist C (first dist k) := by
  induction k with
  | zero => rw [(K.world.valid 0 K.world.some_process).zero]; rfl
  | succ k ih =>
    rw [List.range_succ, List.map_append, List.sum_append, ih (by omega), List.map_singleton, List.sum_singleton, K.cnode_succ (by omega)]

theorem Clustered.coarseDist : coarseDist? S (procs dist) g lab = some (cdistOf dist C) := by
  unfold coarseDist?
  rw [mapM_some (g := lcs dist C) fun q hq => K.mapping hS (List.mem_range.1 hq), Option.map_some, List.map_map]
  congr 1
  have hm : (List.range (procs dist)).map (coarseN ∘ lcs dist C) = (List.range (procs dist)).map (cnum dist C) :=
    List.map_congr_left fun q hq => K.coarseN_eq (List.mem_range.1 hq)
  rw [hm]
  have hlen := (C64_edge_distribution ((List.range (procs dist)).map (cnum dist C)) 0 (Nat.zero_le _)).2
  rw [List.length_map, List.length_range] at hlen
  unfold cdistOf
  apply List.ext_getElem?
  intro i
  rcases Nat.lt_or_ge i (procs dist + 1) with h | h
  · rw [(C64_edge_distribution _ i (by rw [List.length_map, List.length_range]; omega)).1, List.getElem?_map, List.getElem?_range h,
      Option.map_some, ← List.map_take, List.take_range, Nat.min_eq_left (by omega), K.cnode_first (by omega)]
  · rw [List.getElem?_eq_none (by omega), List.getElem?_eq_none (by rw [List.length_map, List.length_range]; exact h)]

omit K hS in
theorem cdist_get {q : Nat} (hq : q ≤ procs dist) : (cdistOf dist C)[q]? = some (cnode dist C (first dist q)) := by
  unfold cdistOf
  rw [List.getElem?_map, List.getElem?_range (by omega)]
  rfl

omit K hS in
theorem cdist_first {q : Nat} (hq : q ≤ procs dist) : first (cdistOf dist C) q = cnode dist C (first dist q) := by
  unfold first
  rw [List.getD_eq_getElem?_getD, cdist_get hq]
  rfl

omit K hS in
theorem cdist_procs : procs (cdistOf dist C) = procs dist := by
  show (cdistOf dist C).length - 1 = procs dist
  unfold cdistOf
  rw [List.length_map, List.length_range]
  omega

omit hS in
theorem Clustered.cdist_local {q : Nat} (hq : q < procs dist) : localN (cdistOf dist C) q = cnum dist C q := by
  unfold localN
  rw [cdist_first (by omega), cdist_first (by omega), K.cnode_succ hq]
  omega

/-- The array holds the number of a cluster, counted from the first coarse node of the process. -/
theorem Clustered.lcs_get {q c : Nat} (hq : q < procs dist) (h1 : first dist q ≤ c) (h2 : c < first dist (q + 1))
    (hu : used C (globalN dist) c = true) : (lcs dist C q)[c - first dist q]? = some (cnode dist C c - cnode dist C (first dist q)) ∧
      cnode dist C (first dist q) ≤ cnode dist C c ∧ cnode dist C c - cnode dist C (first dist q) < cnum dist C q := by
  have hsf := K.world.succ_first hq
  have hadd := num_add (C := C) (n := globalN dist) (first dist q) (c - first dist q)
  rw [show first dist q + (c - first dist q) = c by omega] at hadd
  have hlt : cnode dist C c < cnode dist C (first dist (q + 1)) := num_lt h2 hu
  rw [K.cnode_succ hq] at hlt
  refine ⟨?_, num_mono h1, ?_⟩
  · unfold lcs
    rw [List.getElem?_map, List.getElem?_range (by omega), Option.map_some, List.range_succ, List.countP_append, List.countP_singleton,
      show first dist q + (c - first dist q) = c by omega, if_pos hu]
    unfold pred32
    rw [if_neg (by omega)]
    congr 1
    unfold cnode
    omega
  · unfold cnode at *
    omega

theorem Clustered.lcnode {q c : Nat} (hq : q < procs dist) (h1 : first dist q ≤ c) (h2 : c < first dist (q + 1))
    (hu : used C (globalN dist) c = true) : lcnode? (g q) (lcs dist C q) c = some (cnode dist C c - cnode dist C (first dist q)) := by
  unfold lcnode?
  rw [K.world.offset hq, Option.bind_some, if_pos h1, (K.lcs_get hS hq h1 h2 hu).1]

theorem Clustered.got_used {q : Nat} (hq : q < procs dist) {x : Nat × Int} (hx : x ∈ got S dist inp g C q) :
    first dist q ≤ x.1 ∧ x.1 < first dist (q + 1) ∧ used C (globalN dist) x.1 = true := by
  obtain ⟨h1, h2, p, hp, _, l, hl, h⟩ := (K.got_keys hS hq).1 (List.mem_map_of_mem (f := (·.1)) hx)
  exact ⟨h1, h2, h ▸ K.label_used hp hl⟩

/-- What process `p` learns about clusters of other processes. -/
theorem Clustered.foreignMapping {p : Nat} (hp : p < procs dist) : foreignMapping? S (procs dist) g lab p =
    some ((List.range (procs dist)).flatMap fun q => ((sent S dist inp g C p).filter fun x => decide (ow dist x.1 = q)).map fun x =>
      (x.1, cnode dist C x.1 - cnode dist C (first dist q) + cnode dist C (first dist q))) := by
  unfold foreignMapping?
  rw [K.coarseDist hS, Option.bind_some]
  refine reply_ok (o := fun _ x => ow dist x.1) (B := sent S dist inp g C)
    (r := fun q x => (x.1, cnode dist C x.1 - cnode dist C (first dist q) + cnode dist C (first dist q))) ?_ ?_ ?_ ?_ hp
  · intro q hq
    rw [K.mapping hS hq, Option.bind_some, K.recvNodes hS hq, Option.bind_some]
    unfold answers?
    rw [(K.world.represents q hq).rank_eq, cdist_get (by omega), Option.bind_some]
    refine mapM_some fun x hx => ?_
    obtain ⟨h1, h2, h3⟩ := K.got_used hS hq hx
    rw [K.lcnode hS hq h1 h2 h3]
    rfl
  · intro q hq; exact K.sentCounts hS hq
  · intro q hq x hx; exact (K.world.ow_bounds (K.sent_lt hS hq hx)).1
  · exact K.sent_small hS

/-- The mapper of process `p` knows the coarse nodes of the clusters of all its nodes and ghost nodes. -/
theorem Clustered.gcnode {p l : Nat} (hp : p < procs dist) (hl : l < (g p).totalN) {t : List (Nat × Nat)}
    (ht : foreignMapping? S (procs dist) g lab p = some t) :
    gcnode? (g p) (lcs dist C p) (cdistOf dist C) t (C (glob g p l)) = some (cnode dist C (C (glob g p l))) := by
  have W := K.world
  have R := W.represents p hp
  unfold gcnode?
  have hd : ∀ i, i ≤ procs dist → dist[i]? = some (first dist i) := fun i hi => getD_some (by
    have := W.some_process
    unfold procs at hi this
    omega)
  rw [R.rank_eq, R.dist_eq, hd p (by omega), Option.bind_some, hd (p + 1) (by omega), Option.bind_some, cdist_get (by omega), Option.bind_some]
  by_cases ho : first dist p ≤ C (glob g p l) ∧ C (glob g p l) < first dist (p + 1)
  · rw [if_pos ho]
    obtain ⟨h1, h2, _⟩ := K.lcs_get hS hp ho.1 ho.2 (K.label_used hp hl)
    rw [h1]
    exact congrArg some (Nat.add_sub_cancel' h2)
  · rw [if_neg ho]
    rw [K.foreignMapping hS hp] at ht
    cases ht
    have hin := (K.sent_keys hS hp).2 ⟨⟨l, hl, rfl⟩, ho⟩
    obtain ⟨x, hx, hxc⟩ := List.mem_map.1 hin
    have hb := W.ow_bounds (K.sent_lt hS hp hx)
    refine lookup_of_values (F := fun c => cnode dist C c) ?_ ?_
    · intro y hy
      obtain ⟨q, _, hy⟩ := List.mem_flatMap.1 hy
      obtain ⟨z, hz, rfl⟩ := List.mem_map.1 hy
      rw [List.mem_filter] at hz
      have hz2 : ow dist z.1 = q := of_decide_eq_true hz.2
      have := num_mono (C := C) (n := globalN dist) (W.ow_bounds (K.sent_lt hS hp hz.1)).2.1
      show cnode dist C z.1 - cnode dist C (first dist q) + cnode dist C (first dist q) = cnode dist C z.1
      rw [hz2] at this
      exact Nat.sub_add_cancel this
    · rw [← hxc, List.map_flatMap, List.mem_flatMap]
      refine ⟨ow dist x.1, List.mem_range.2 hb.1, ?_⟩
      rw [List.map_map]
      exact List.mem_map.2 ⟨x, List.mem_filter.2 ⟨hx, decide_eq_true rfl⟩, rfl⟩

/-- The coarse nodes of the nodes and ghost nodes of process `p`. -/
def gcnOf (dist : List Nat) (g : Nat → DGraph) (C : Nat → Nat) (p : Nat) : List Nat :=
  (List.range (g p).totalN).map fun l => cnode dist C (C (glob g p l))

theorem Clustered.coarseNodes {p : Nat} (hp : p < procs dist) : coarseNodes? S (procs dist) g lab p = some (gcnOf dist g C p) := by
  have ht := K.foreignMapping hS hp
  unfold coarseNodes?
  rw [K.coarseDist hS, Option.bind_some, K.mapping hS hp, Option.bind_some, ht, Option.bind_some]
  unfold gcnodes?
  refine mapM_some fun l hl => ?_
  have hl := List.mem_range.1 hl
  rw [K.label hp hl, Option.bind_some, K.gcnode hS hp hl ht]

omit K hS in
theorem gcn_get {p l : Nat} (hl : l < (g p).totalN) : (gcnOf dist g C p)[l]? = some (cnode dist C (C (glob g p l))) := by
  unfold gcnOf
  rw [List.getElem?_map, List.getElem?_range hl]
  rfl

end Verif.Dist
