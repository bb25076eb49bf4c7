import Verif.Dist.ContractCollect

/-!
# The edges and the weight of a coarse node, for the proof of C73
-/

namespace Verif.Dist
open Verif.Math

variable {C : Nat → Nat} {dist : List Nat} {inp : Nat → Input} {g : Nat → DGraph} {lab : Nat → List Nat} {S : Nat → Orders}

theorem sum_indicator_int {q : Nat} (a : Int) : ∀ {k : Nat}, q < k → ((List.range k).map fun p => if p = q then a else 0).sum = a
  | 0, h => absurd h (Nat.not_lt_zero _)
  | k + 1, h => by
    rw [List.range_succ, List.map_append, sum_append_int, List.map_singleton, List.sum_singleton]
    by_cases hq : k = q
    · subst hq
      rw [if_pos rfl]
      have : ((List.range k).map fun p => if p = k then a else 0) = (List.range k).map fun _ => (0 : Int) :=
        List.map_congr_left fun p hp => if_neg (by have := List.mem_range.1 hp; omega)
      rw [this, List.map_const', List.sum_replicate]
      simp
    · rw [if_neg hq, sum_indicator_int a (by omega), Int.add_zero]

theorem sum_split {q N : Nat} {F r : Nat → Int} (hq : q < N) (h1 : r q = 0) (h2 : ∀ p, p < N → p ≠ q → F p = r p) :
    ((List.range N).map F).sum = F q + ((List.range N).map r).sum := by
  rw [← sum_indicator_int (F q) hq, ← sum_map_add]
  congr 1
  refine List.map_congr_left fun p hp => ?_
  by_cases h : p = q
  · rw [if_pos h, h, h1, Int.add_zero]
  · rw [if_neg h, Int.zero_add]
    exact h2 p (List.mem_range.1 hp) h

theorem sum_filter_nat (c : Nat → Bool) (φ : Nat → Int) (l : List Nat) : ((l.filter c).map φ).sum = (l.map fun x => if c x = true then φ x else 0).sum :=
  sum_filter_map c φ l

variable (K : Clustered dist inp g lab C)
include K
variable (hS : ∀ p, p < procs dist → (S p).Ok)
include hS

omit K hS in
theorem total_loc (q u y x : Nat) : (if cnode dist C (C (first dist q + u)) = x then total y (locOf dist inp C q u) else 0) =
    wsum (fun a b => decide (cnode dist C (C a) = x ∧ cnode dist C (C b) = y)) (fineOf dist inp q u) := by
  unfold locOf fineOf
  induction (inp q).neighbours u with
  | nil => rw [List.map_nil, List.map_nil, total_nil]; split <;> rfl
  | cons z l ih =>
    rw [List.map_cons, List.map_cons, total_cons, wsum_cons, ← ih]
    dsimp only
    by_cases h1 : cnode dist C (C (first dist q + u)) = x
    · rw [if_pos h1, if_pos h1]
      by_cases h2 : cnode dist C (C z.1) = y
      · rw [if_pos h2, if_pos (decide_eq_true ⟨h1, h2⟩)]
      · rw [if_neg h2, if_neg fun h => h2 (of_decide_eq_true h).2]
    · rw [if_neg h1, if_neg h1, if_neg fun h => h1 (of_decide_eq_true h).1]
      rfl

/-- The edges of a coarse node have the weight of all edges between the two clusters. -/
theorem Clustered.all_total {q lcu y : Nat} (hq : q < procs dist) (hl : lcu < localN (cdistOf dist C) q) (hy : y ≠ first (cdistOf dist C) q + lcu) :
    total y (allOf S dist inp C q lcu) =
      ((between dist inp (fun a => cnode dist C (C a)) (first (cdistOf dist C) q + lcu) y).map (·.2.2)).sum := by
  have hx : first (cdistOf dist C) q + lcu < first (cdistOf dist C) (q + 1) := by unfold localN at hl; omega
  have hb : ((between dist inp (fun a => cnode dist C (C a)) (first (cdistOf dist C) q + lcu) y).map (·.2.2)).sum =
      wsum (fun a b => decide (cnode dist C (C a) = first (cdistOf dist C) q + lcu ∧ cnode dist C (C b) = y)) (Verif.Dist.edges dist inp) := rfl
  rw [hb, edges_fine, wsum_flatMap, sum_split (r := fun p => total y (outOf S dist inp C p (first (cdistOf dist C) q + lcu))) hq
    (K.out_own hS hq (by omega) hx).1 fun p hp hpq => (K.out_total hS hp hq hpq (Ne.symm hy) (by omega) hx).symm]
  unfold allOf
  rw [total_append, total_perm y (K.in_of hS hq hl), total_flatMap, total_flatMap, wsum_flatMap]
  congr 1
  unfold members
  rw [sum_filter_nat]
  congr 1
  refine List.map_congr_left fun u _ => ?_
  rw [← total_loc]
  simp only [decide_eq_true_iff]

theorem Clustered.all_keys {q lcu y : Nat} (hq : q < procs dist) (hl : lcu < localN (cdistOf dist C) q) (hy : y ≠ first (cdistOf dist C) q + lcu) :
    y ∈ (allOf S dist inp C q lcu).map (·.1) ↔ between dist inp (fun a => cnode dist C (C a)) (first (cdistOf dist C) q + lcu) y ≠ [] := by
  have hx : first (cdistOf dist C) q + lcu < first (cdistOf dist C) (q + 1) := by unfold localN at hl; omega
  have hb : between dist inp (fun a => cnode dist C (C a)) (first (cdistOf dist C) q + lcu) y ≠ [] ↔
      ∃ p, p < procs dist ∧ ∃ e, e ∈ (List.range (localN dist p)).flatMap (fineOf dist inp p) ∧
        cnode dist C (C e.1) = first (cdistOf dist C) q + lcu ∧ cnode dist C (C e.2.1) = y := by
    unfold between
    rw [edges_fine]
    constructor
    · intro h
      obtain ⟨e, he⟩ := List.exists_mem_of_ne_nil _ h
      rw [List.mem_filter] at he
      obtain ⟨p, hp, hep⟩ := List.mem_flatMap.1 he.1
      exact ⟨p, List.mem_range.1 hp, e, hep, of_decide_eq_true he.2⟩
    · rintro ⟨p, hp, e, he, h⟩
      exact List.ne_nil_of_mem (List.mem_filter.2 ⟨List.mem_flatMap.2 ⟨p, List.mem_range.2 hp, he⟩, decide_eq_true h⟩)
  rw [hb]
  unfold allOf
  rw [List.map_append, List.mem_append, ((K.in_of hS hq hl).map (·.1)).mem_iff, List.map_flatMap, List.map_flatMap, List.mem_flatMap, List.mem_flatMap]
  constructor
  · rintro (⟨u, hu, h⟩ | ⟨p, hp, h⟩)
    · obtain ⟨z, hz, rfl⟩ := List.mem_map.1 h
      obtain ⟨w, hw, rfl⟩ := List.mem_map.1 hz
      have hu := List.mem_filter.1 hu
      exact ⟨q, hq, _, List.mem_flatMap.2 ⟨u, hu.1, List.mem_map.2 ⟨w, hw, rfl⟩⟩, of_decide_eq_true hu.2, rfl⟩
    · have hp := List.mem_range.1 hp
      have hpq : p ≠ q := by
        rintro rfl
        exact (K.out_own hS hp (by omega) hx).2 h
      exact ⟨p, hp, (K.out_keys hS hp hq hpq (Ne.symm hy) (by omega) hx).1 h⟩
  · rintro ⟨p, hp, h⟩
    by_cases hpq : p = q
    · subst hpq
      obtain ⟨e, he, h1, h2⟩ := h
      obtain ⟨u, hu, he⟩ := List.mem_flatMap.1 he
      obtain ⟨w, hw, rfl⟩ := List.mem_map.1 he
      exact .inl ⟨u, List.mem_filter.2 ⟨hu, decide_eq_true h1⟩, List.mem_map.2 ⟨_, List.mem_map.2 ⟨w, hw, rfl⟩, h2⟩⟩
    · exact .inr ⟨p, List.mem_range.2 hp, (K.out_keys hS hp hq hpq (Ne.symm hy) (by omega) hx).2 h⟩

/-! ## The edges that process `q` stores -/

omit hS in
theorem Clustered.owned_local {q v : Nat} (hq : q < procs dist) (h : owned dist C q v = true) : v - first (cdistOf dist C) q < cnum dist C q := by
  rw [← K.cdist_local hq]
  have := owned_iff.1 h
  unfold localN
  omega

/-- The global ID of a local ID of the coarse graph. -/
def gid (dist : List Nat) (C : Nat → Nat) (t : Ghosts) (q l : Nat) : Nat :=
  if l < cnum dist C q then first (cdistOf dist C) q + l else t.toGlobal (l - cnum dist C q)

omit hS in
theorem Clustered.gid_lid {q v : Nat} (hq : q < procs dist) {m : Mapper} {t : Ghosts} {tl : List Nat} (hm : MapOk (cnum dist C q) tl m)
    (ht : GhostOk (cdistOf dist C) (cnum dist C q) m.table t) (hv : owned dist C q v = true ∨ v ∈ tl) :
    gid dist C t q (lid dist C t.toGhost q v) = v ∧ (owned dist C q v = true ∨ ∃ j, t.toGhost.lookup (v + 1) = some j) := by
  unfold lid gid
  by_cases ho : owned dist C q v = true
  · have h1 := K.owned_local hq ho
    have := owned_iff.1 ho
    rw [if_pos ho, if_pos h1]
    exact ⟨by omega, .inl ho⟩
  · rw [if_neg ho]
    have hin := (hm.mem v).2 (hv.resolve_left ho)
    obtain ⟨⟨v', j⟩, hj, rfl⟩ := List.mem_map.1 hin
    have hl := (ht.lookup v' j).2 hj
    have hge : cnum dist C q ≤ j := by
      have h2 : j ∈ m.table.map Prod.snd := List.mem_map_of_mem (f := Prod.snd) hj
      rw [hm.values, List.mem_reverse, List.mem_range'_1] at h2
      exact h2.1
    refine ⟨?_, .inr ⟨j, hl⟩⟩
    show (if (t.toGhost.lookup (v' + 1)).getD 0 < _ then _ else _) = v'
    rw [hl]
    show (if j < _ then _ else _) = v'
    rw [if_neg (by omega)]
    exact (ht.arrays v' j hj).1

theorem Clustered.collect {q lcu : Nat} (hq : q < procs dist) (hl : lcu < localN (cdistOf dist C) q) {m : Mapper} {t : Ghosts}
    (hm : MapOk (cnum dist C q) (ghostTargets S dist inp C q) m) (ht : GhostOk (cdistOf dist C) (cnum dist C q) m.table t) : ∃ nbr,
    collect? (S q) (g q) (lab q) (lcs dist C q) (cdistOf dist C) (gcnOf dist g C q) (inE S dist inp C q) t.toGhost lcu =
        some (((members dist C q lcu).map (inp q).nodeWeight).sum, rekey (lid dist C t.toGhost q) nbr) ∧ (nbr.map (·.1)).Nodup ∧
      (∀ y, y ∈ nbr → y.1 < globalN (cdistOf dist C) ∧ (owned dist C q y.1 = true ∨ y.1 ∈ ghostTargets S dist inp C q)) ∧
      ∀ y w, (y, w) ∈ nbr ↔ y ≠ first (cdistOf dist C) q + lcu ∧
        between dist inp (fun a => cnode dist C (C a)) (first (cdistOf dist C) q + lcu) y ≠ [] ∧
        w = ((between dist inp (fun a => cnode dist C (C a)) (first (cdistOf dist C) q + lcu) y).map (·.2.2)).sum := by
  have hln := K.cdist_local hq
  obtain ⟨l, h1, h2, h3⟩ := K.entries hS hq hl
  have hknow : ∀ x, x ∈ (l.map (·.2)).flatten → x.1 < globalN (cdistOf dist C) ∧ (owned dist C q x.1 = true ∨ x.1 ∈ ghostTargets S dist inp C q) :=
    fun x hx => K.all_known hS hq hl (h2.mem_iff.1 hx)
  have hself : ∀ v, owned dist C q v = true ∨ v ∈ ghostTargets S dist inp C q → (lid dist C t.toGhost q v = lcu ↔ v = first (cdistOf dist C) q + lcu) := by
    intro v hv
    constructor
    · intro h
      have := (K.gid_lid hq hm ht hv).1
      rw [h] at this
      unfold gid at this
      rw [if_pos (by omega)] at this
      exact this.symm
    · rintro rfl
      unfold lid
      rw [if_pos (owned_iff.2 ⟨by omega, by unfold localN at hl; omega⟩)]
      omega
  let A := addAll ((l.map (·.2)).flatten.filter fun x => decide (lid dist C t.toGhost q x.1 ≠ lcu)) []
  have hA : ∀ y, y ∈ A.map (·.1) ↔ y ≠ first (cdistOf dist C) q + lcu ∧ y ∈ (allOf S dist inp C q lcu).map (·.1) := by
    intro y
    show y ∈ (addAll _ []).map (·.1) ↔ _
    rw [addAll_mem, ← (h2.map (·.1)).mem_iff]
    constructor
    · rintro (h | h)
      · exact absurd h List.not_mem_nil
      · obtain ⟨x, hx, rfl⟩ := List.mem_map.1 h
        rw [List.mem_filter] at hx
        exact ⟨fun h => of_decide_eq_true hx.2 ((hself x.1 (hknow x hx.1).2).2 h), List.mem_map_of_mem hx.1⟩
    · rintro ⟨hy, h⟩
      obtain ⟨x, hx, rfl⟩ := List.mem_map.1 h
      exact .inr (List.mem_map_of_mem (List.mem_filter.2 ⟨hx, decide_eq_true fun h => hy ((hself x.1 (hknow x hx).2).1 h)⟩))
  have hAn : (A.map (·.1)).Nodup := addAll_nodup _ _ List.nodup_nil
  have hAt : ∀ y, y ≠ first (cdistOf dist C) q + lcu → total y A = total y (allOf S dist inp C q lcu) := by
    intro y hy
    show total y (addAll _ []) = _
    rw [addAll_total, total_nil, Int.zero_add, ← total_perm y h2]
    unfold total
    rw [List.filter_filter]
    congr 2
    refine List.filter_congr fun x hx => ?_
    by_cases h : x.1 = y
    · rw [decide_eq_true h, Bool.true_and]
      exact decide_eq_true fun h' => hy (by rw [← h]; exact (hself x.1 (hknow x hx).2).1 h')
    · rw [decide_eq_false h, Bool.false_and]
  have hAk : ∀ y, y ∈ A.map (·.1) → y < globalN (cdistOf dist C) ∧ (owned dist C q y = true ∨ y ∈ ghostTargets S dist inp C q) := by
    intro y hy
    obtain ⟨x, hx, rfl⟩ := List.mem_map.1 ((hA y).1 hy).2
    exact K.all_known hS hq hl hx
  have hren : addAll (rekey (lid dist C t.toGhost q) ((l.map (·.2)).flatten.filter fun x => decide (lid dist C t.toGhost q x.1 ≠ lcu))) [] =
      rekey (lid dist C t.toGhost q) A := by
    refine addAll_rekey (t := []) fun a b ha hb hab => ?_
    rw [List.nil_append] at ha hb
    obtain ⟨x, hx, rfl⟩ := List.mem_map.1 ha
    obtain ⟨y, hy, rfl⟩ := List.mem_map.1 hb
    have e1 := (K.gid_lid hq hm ht (hknow x (List.mem_filter.1 hx).1).2).1
    have e2 := (K.gid_lid hq hm ht (hknow y (List.mem_filter.1 hy).1).2).1
    rw [← e1, ← e2, hab]
  have hperm := (hS q hq).entries lcu (rekey (lid dist C t.toGhost q) A)
  have hback : rekey (gid dist C t q) (rekey (lid dist C t.toGhost q) A) = A := by
    unfold rekey
    rw [List.map_map]
    conv_rhs => rw [← List.map_id A]
    refine List.map_congr_left fun x hx => ?_
    show (gid dist C t q (lid dist C t.toGhost q x.1), x.2) = x
    rw [(K.gid_lid hq hm ht (hAk x.1 (List.mem_map_of_mem hx)).2).1]
  have hnbr : (rekey (gid dist C t q) ((S q).entries lcu (rekey (lid dist C t.toGhost q) A))).Perm A := by
    have h := hperm.map fun x : Nat × Int => (gid dist C t q x.1, x.2)
    have h' : (rekey (lid dist C t.toGhost q) A).map (fun x : Nat × Int => (gid dist C t q x.1, x.2)) = A := hback
    rw [h'] at h
    exact h
  refine ⟨rekey (gid dist C t q) ((S q).entries lcu (rekey (lid dist C t.toGhost q) A)), ?_, ?_, ?_, ?_⟩
  · unfold collect?
    rw [K.bucket hS hq hl, Option.bind_some, h1, Option.bind_some, (K.world.represents q hq).rank_eq,
      insertEdges_ok hq _ _ fun x hx => (K.gid_lid hq hm ht (hknow x hx).2).2, Option.map_some, h3, hren]
    congr 2
    unfold rekey
    rw [List.map_map]
    conv_lhs => rw [← List.map_id ((S q).entries lcu _)]
    refine List.map_congr_left fun x hx => ?_
    obtain ⟨y, hy, rfl⟩ := List.mem_map.1 (hperm.mem_iff.1 hx)
    show _ = (lid dist C t.toGhost q (gid dist C t q (lid dist C t.toGhost q y.1)), y.2)
    rw [(K.gid_lid hq hm ht (hAk y.1 (List.mem_map_of_mem hy)).2).1]
    rfl
  · exact ((hnbr.map (·.1)).nodup_iff).2 hAn
  · intro y hy
    exact hAk y.1 (List.mem_map_of_mem (hnbr.mem_iff.1 hy))
  · intro y w
    rw [hnbr.mem_iff]
    constructor
    · intro h
      obtain ⟨hy, hk⟩ := (hA y).1 (List.mem_map_of_mem (f := (·.1)) h)
      refine ⟨hy, (K.all_keys hS hq hl hy).1 hk, ?_⟩
      rw [← K.all_total hS hq hl hy, ← hAt y hy, total_of_mem hAn h]
    · rintro ⟨hy, hk, rfl⟩
      obtain ⟨x, hx, rfl⟩ := List.mem_map.1 ((hA y).2 ⟨hy, (K.all_keys hS hq hl hy).2 hk⟩)
      rw [← K.all_total hS hq hl hy, ← hAt x.1 hy, total_of_mem (k := x.1) (w := x.2) hAn hx]
      exact hx

/-! ## The weight of a coarse node -/

theorem Clustered.received_total {q c : Nat} (hq : q < procs dist) (h1 : first dist q ≤ c) (h2 : c < first dist (q + 1)) :
    total c (got S dist inp g C q) = ((List.range (procs dist)).map fun p => total c (sent S dist inp g C p)).sum := by
  have W := K.world
  unfold got
  rw [total_flatMap]
  congr 1
  refine List.map_congr_left fun p hp => ?_
  unfold total
  rw [List.filter_filter]
  congr 2
  refine List.filter_congr fun x hx => ?_
  by_cases h : x.1 = c
  · rw [decide_eq_true h, Bool.true_and]
    exact decide_eq_true ((W.ow_eq hq (K.sent_lt hS (List.mem_range.1 hp) hx)).2 (by rw [h]; exact ⟨h1, h2⟩))
  · rw [decide_eq_false h, Bool.false_and]

omit hS in
theorem Clustered.item_total {p c : Nat} (hp : p < procs dist) (hc : ¬(first dist p ≤ c ∧ c < first dist (p + 1))) :
    ((List.range (g p).totalN).map fun l => total c (item dist inp g C p l)).sum =
      ((List.range (localN dist p)).map fun u => if C (first dist p + u) = c then (inp p).nodeWeight u else 0).sum := by
  have W := K.world
  have R := W.represents p hp
  have hitem : ∀ l, total c (item dist inp g C p l) = if C (glob g p l) = c then (if l < localN dist p then (inp p).nodeWeight l else 0) else 0 := by
    intro l
    unfold item
    by_cases h : C (glob g p l) = c
    · rw [if_neg (by rw [h]; exact hc), total_cons, total_nil, Int.add_zero]
    · rw [if_neg h]
      split
      · rfl
      · rw [total_cons, total_nil, Int.add_zero, if_neg h]
  have htot : (g p).totalN = localN dist p + ((g p).totalN - localN dist p) := by
    have := W.local_le_total hp
    omega
  rw [htot, List.range_add, List.map_append, sum_append_int, List.map_map]
  have h0 : (List.range ((g p).totalN - localN dist p)).map ((fun l => total c (item dist inp g C p l)) ∘ fun x => localN dist p + x) =
      (List.range ((g p).totalN - localN dist p)).map fun _ => (0 : Int) := by
    refine List.map_congr_left fun x _ => ?_
    show total c (item dist inp g C p (localN dist p + x)) = 0
    rw [hitem, if_neg (show ¬ localN dist p + x < localN dist p by omega)]
    split <;> rfl
  rw [h0, List.map_const', show (List.replicate (List.range ((g p).totalN - localN dist p)).length (0 : Int)).sum = 0 by rw [List.sum_replicate]; simp, Int.add_zero]
  congr 1
  refine List.map_congr_left fun u hu => ?_
  have hu := List.mem_range.1 hu
  rw [hitem, W.glob_own hp hu, if_pos hu]

/-- The weight of a coarse node is the weight of the nodes of this process in it and of the received nodes. -/
theorem Clustered.weight {Wt : Nat → Int} (hW : HasWeights dist inp Wt) {q c : Nat} (hq : q < procs dist) (h1 : first dist q ≤ c)
    (h2 : c < first dist (q + 1)) (hu : used C (globalN dist) c = true) :
    ((members dist C q (cnode dist C c - first (cdistOf dist C) q)).map (inp q).nodeWeight).sum + total c (got S dist inp g C q) =
      blockWeight dist Wt (fun a => cnode dist C (C a)) (cnode dist C c) := by
  have W := K.world
  have hle : first (cdistOf dist C) q ≤ cnode dist C c := by
    rw [cdist_first (by omega)]
    exact num_mono h1
  have heq : ∀ a, a < globalN dist → (cnode dist C (C a) = cnode dist C c ↔ C a = c) := fun a ha =>
    ⟨fun h => num_inj (used_iff.2 ⟨a, ha, rfl⟩) hu h, fun h => by rw [h]⟩
  have hpart : ∀ p, p < procs dist → ((List.range (localN dist p)).map fun u =>
      if decide (cnode dist C (C (first dist p + u)) = cnode dist C c) = true then Wt (first dist p + u) else 0).sum =
      ((List.range (localN dist p)).map fun u => if C (first dist p + u) = c then (inp p).nodeWeight u else 0).sum := by
    intro p hp
    congr 1
    refine List.map_congr_left fun u hu => ?_
    have hu := List.mem_range.1 hu
    rw [hW p hp u hu]
    simp only [decide_eq_true_iff, heq _ (owned_lt W hp hu)]
  unfold blockWeight
  rw [sum_filter_nat, ← W.tile, K.received_total hS hq h1 h2]
  rw [sum_split (F := fun p => ((List.range (localN dist p)).map fun u =>
      if decide (cnode dist C (C (first dist p + u)) = cnode dist C c) = true then Wt (first dist p + u) else 0).sum)
      (r := fun p => total c (sent S dist inp g C p)) hq]
  · congr 1
    rw [hpart q hq]
    unfold members
    rw [sum_filter_nat]
    congr 1
    refine List.map_congr_left fun u hu => ?_
    have hu := List.mem_range.1 hu
    rw [show first (cdistOf dist C) q + (cnode dist C c - first (cdistOf dist C) q) = cnode dist C c by omega]
    simp only [decide_eq_true_iff, heq _ (owned_lt W hq hu)]
  · refine total_of_not_mem fun h => ?_
    exact ((K.sent_keys hS hq).1 h).2 ⟨h1, h2⟩
  · intro p hp hpq
    have hno : ¬(first dist p ≤ c ∧ c < first dist (p + 1)) := by
      intro h
      have hc := W.lt_global hq h2
      have e1 := (W.ow_eq hp hc).2 h
      have e2 := (W.ow_eq hq hc).2 ⟨h1, h2⟩
      omega
    show ((List.range (localN dist p)).map fun u => if decide _ = true then _ else _).sum = total c (sent S dist inp g C p)
    rw [hpart p hp, sent_total hS hp, K.item_total hp hno]

end Verif.Dist
