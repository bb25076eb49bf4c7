import Verif.Dist.ShiftMap
import Verif.Dist.ContractProps

/-!
# Lemmas: the new clusters
-/

namespace Verif.Dist
open Verif.Math

variable {C : Nat → Nat} {dist : List Nat} {inp : Nat → Input} {g : Nat → DGraph} {lab : Nat → List Nat} {S : Nat → Orders}
  {lim : Nat} {out inc : Nat → Nat}

/-- The new place of the cluster of node `a`. -/
def newPlace (fst : Bool) (dist : List Nat) (C out inc : Nat → Nat) (a : Nat) : Nat × Nat :=
  (remap? fst (cdistOf dist C) (edgeDistribution ((List.range (procs dist)).map out)) (edgeDistribution ((List.range (procs dist)).map inc))
    (cnode dist C (C a)) (ow dist (C a))).getD (0, 0)

/-- The new cluster of node `a`. -/
def newCluster (fst : Bool) (dist : List Nat) (C out inc : Nat → Nat) (a : Nat) : Nat :=
  first dist (newPlace fst dist C out inc a).2 + (newPlace fst dist C out inc a).1

variable (K : Clustered dist inp g lab C) (hM : Plan dist (cdistOf dist C) lim out inc) (fst : Bool)
include K hM

theorem Clustered.place {a : Nat} (ha : a < globalN dist) :
    remap? fst (cdistOf dist C) (edgeDistribution ((List.range (procs dist)).map out)) (edgeDistribution ((List.range (procs dist)).map inc))
      (cnode dist C (C a)) (ow dist (C a)) = some (newPlace fst dist C out inc a) ∧
    (newPlace fst dist C out inc a).2 < procs dist ∧ (newPlace fst dist C out inc a).1 < localN dist (newPlace fst dist C out inc a).2 ∧
    Placed (localN (cdistOf dist C)) out inc fst (ow dist (C a)) (cnode dist C (C a) - first (cdistOf dist C) (ow dist (C a)))
      (newPlace fst dist C out inc a).2 (newPlace fst dist C out inc a).1 := by
  have hb := K.world.ow_bounds (K.labels a ha)
  have hu : used C (globalN dist) (C a) = true := used_iff.2 ⟨a, ha, rfl⟩
  have hc := (cnode_owned (dist := dist) (C := C) hu).1 hb.2
  have h1 := cdist_first (dist := dist) (C := C) (q := ow dist (C a)) (by omega)
  have h2 := cdist_first (dist := dist) (C := C) (q := ow dist (C a) + 1) (by omega)
  rw [← h1, ← h2] at hc
  have hm : ∀ q, q < procs (cdistOf dist C) → first (cdistOf dist C) q ≤ first (cdistOf dist C) (q + 1) := by
    intro q hq
    rw [cdist_procs] at hq
    rw [cdist_first (by omega), cdist_first (by omega), K.cnode_succ hq]
    omega
  obtain ⟨q', l', g1, g2, g3⟩ := remap_ok cdist_procs hm hM fst (q := ow dist (C a)) (l := cnode dist C (C a) - first (cdistOf dist C) (ow dist (C a)))
    hb.1 (by unfold localN; omega)
  rw [Nat.add_sub_cancel' hc.1] at g2
  have h3 : newPlace fst dist C out inc a = (l', q') := by unfold newPlace; rw [g2]; rfl
  rw [h3]
  exact ⟨g2, g1, Placed.lt hM g1 g3, g3⟩

theorem Clustered.new_owner {a : Nat} (ha : a < globalN dist) : newCluster fst dist C out inc a < globalN dist ∧
    first dist (newPlace fst dist C out inc a).2 ≤ newCluster fst dist C out inc a ∧
    newCluster fst dist C out inc a < first dist ((newPlace fst dist C out inc a).2 + 1) := by
  obtain ⟨_, h1, h2, _⟩ := K.place hM fst ha
  have hs := K.world.succ_first h1
  unfold newCluster
  have h3 : first dist (newPlace fst dist C out inc a).2 + (newPlace fst dist C out inc a).1 < first dist ((newPlace fst dist C out inc a).2 + 1) := by
    omega
  exact ⟨K.world.lt_global h1 h3, by omega, h3⟩

theorem Clustered.new_iff {a b : Nat} (ha : a < globalN dist) (hb : b < globalN dist) :
    newCluster fst dist C out inc a = newCluster fst dist C out inc b ↔ C a = C b := by
  constructor
  · intro h
    obtain ⟨_, a1, a2, a3⟩ := K.place hM fst ha
    obtain ⟨_, b1, b2, b3⟩ := K.place hM fst hb
    have ha' := K.new_owner hM fst ha
    have hb' := K.new_owner hM fst hb
    have e1 : (newPlace fst dist C out inc a).2 = (newPlace fst dist C out inc b).2 := by
      rw [← (K.world.ow_eq a1 ha'.1).2 ha'.2, ← (K.world.ow_eq b1 hb'.1).2 hb'.2, h]
    have e2 : (newPlace fst dist C out inc a).1 = (newPlace fst dist C out inc b).1 := by
      unfold newCluster at h
      rw [e1] at h
      omega
    rw [e1, e2] at a3
    obtain ⟨f1, f2⟩ := a3.inj b3
    have hua : used C (globalN dist) (C a) = true := used_iff.2 ⟨a, ha, rfl⟩
    have hub : used C (globalN dist) (C b) = true := used_iff.2 ⟨b, hb, rfl⟩
    have ga := K.world.ow_bounds (K.labels a ha)
    have gb := K.world.ow_bounds (K.labels b hb)
    have ca := ((cnode_owned (dist := dist) (C := C) hua).1 ga.2).1
    have cb := ((cnode_owned (dist := dist) (C := C) hub).1 gb.2).1
    rw [f1, cdist_first (by omega)] at f2
    rw [f1] at ca
    exact num_inj hua hub (by unfold cnode at *; omega)
  · intro h
    unfold newCluster newPlace
    rw [h]

/-- Which IDs of process `q` name clusters afterwards. -/
theorem Clustered.new_used {q j : Nat} (hq : q < procs dist) (hj : j < localN dist q) :
    used (newCluster fst dist C out inc) (globalN dist) (first dist q + j) =
      decide (j < localN (cdistOf dist C) q - out q ∨ (localN (cdistOf dist C) q ≤ j ∧ j < localN (cdistOf dist C) q + inc q)) := by
  rw [Bool.eq_iff_iff, used_iff, decide_eq_true_iff, ← placed_iff (fst := fst) hM hq]
  constructor
  · rintro ⟨a, ha, h⟩
    obtain ⟨_, a1, a2, a3⟩ := K.place hM fst ha
    have ha' := K.new_owner hM fst ha
    have hs := K.world.succ_first hq
    have e1 : (newPlace fst dist C out inc a).2 = q := by
      rw [← (K.world.ow_eq a1 ha'.1).2 ha'.2]
      exact (K.world.ow_eq hq ha'.1).2 ⟨by omega, by omega⟩
    have e2 : (newPlace fst dist C out inc a).1 = j := by
      unfold newCluster at h
      rw [e1] at h
      omega
    rw [e1, e2] at a3
    have hb := K.world.ow_bounds (K.labels a ha)
    have hc := (cnode_owned (dist := dist) (C := C) (used_iff.2 ⟨a, ha, rfl⟩)).1 hb.2
    rw [← cdist_first (by omega), ← cdist_first (by omega)] at hc
    exact ⟨_, _, hb.1, by unfold localN; omega, a3⟩
  · rintro ⟨p, l, hp, hl, h⟩
    have hx : first (cdistOf dist C) p + l < globalN (cdistOf dist C) := by
      have h1 := K.cnode_succ hp
      rw [← cdist_first (by omega), ← cdist_first (by omega), ← K.cdist_local hp] at h1
      have h2 : first (cdistOf dist C) (p + 1) ≤ globalN (cdistOf dist C) := by
        rw [cdist_global, cdist_first (by omega)]
        exact num_mono ((K.world.valid p hp).mono (show p + 1 ≤ procs dist by omega) (by unfold procs at hp ⊢; omega))
      omega
    obtain ⟨a, ha, hf⟩ := K.numbers.surjective _ hx
    have how : ow dist (C a) = p := by
      have h1 := K.cnode_succ hp
      have h2 := K.cdist_local hp
      refine (K.world.ow_eq hp (K.labels a ha)).2 ((cnode_owned (used_iff.2 ⟨a, ha, rfl⟩)).2 ?_)
      rw [hf, cdist_first (by omega)]
      omega
    obtain ⟨_, a1, a2, a3⟩ := K.place hM fst ha
    have ha' := K.new_owner hM fst ha
    rw [how, hf, Nat.add_sub_cancel_left] at a3
    refine ⟨a, ha, ?_⟩
    have e : newPlace fst dist C out inc a = (j, q) := by
      generalize newPlace fst dist C out inc a = r at a3
      obtain ⟨l', q'⟩ := r
      have := a3
      simp only [Prod.mk.injEq]
      rcases h with ⟨r1, r2, r3⟩ | ⟨i, r1, r2, r3, r4, r5⟩
      · rcases this with ⟨s1, s2, s3⟩ | ⟨i', s1, s2, s3, s4, s5⟩
        · subst r1
          dsimp only at s1 s2 s3
          refine ⟨?_, s1⟩
          cases fst <;> simp at r3 s3 <;> omega
        · exfalso
          subst r1
          have := hM.out_eq q hp
          cases fst <;> simp at r3 s2 <;> omega
      · rcases this with ⟨s1, s2, s3⟩ | ⟨i', s1, s2, s3, s4, s5⟩
        · exfalso
          have := hM.out_eq p hp
          cases fst <;> simp at r2 s3 <;> omega
        · have hi : i = i' := by cases fst <;> simp at r2 s2 <;> omega
          subst hi
          dsimp only at s3 s4 s5
          have : q' = q := psum_unique s3 s4 r3 r4
          subst this
          exact ⟨by omega, rfl⟩
    unfold newCluster
    rw [e]

theorem Clustered.new_cnum {q : Nat} (hq : q < procs dist) :
    cnum dist (newCluster fst dist C out inc) q = localN (cdistOf dist C) q - out q + inc q := by
  unfold cnum
  rw [List.countP_congr fun j hj => by rw [K.new_used hM fst hq (List.mem_range.1 hj)],
    countP_gap (Nat.sub_le _ _) (Nat.le_add_right _ _)]
  have := hM.fits q hq
  omega

variable (hS : ∀ p, p < procs dist → (S p).Ok)
include hS

theorem Clustered.newLabels {L : Limits} {p : Nat} (hp : p < procs dist)
    (hs : shifts? L.next (L.sort p) dist (cdistOf dist C) L.calls L.limit =
      some (edgeDistribution ((List.range (procs dist)).map out), edgeDistribution ((List.range (procs dist)).map inc))) :
    newLabels? S (procs dist) g lab L fst p = some ((List.range (localN dist p)).map fun u => newCluster fst dist C out inc (first dist p + u)) := by
  have W := K.world
  have R := W.represents p hp
  have ht := K.foreignMapping hS hp
  unfold newLabels?
  rw [K.coarseDist hS, Option.bind_some, K.mapping hS hp, Option.bind_some, ht, Option.bind_some, R.dist_eq, hs, Option.bind_some, R.n_eq]
  refine mapM_some fun u hu => ?_
  have hu := List.mem_range.1 hu
  have hl : u < (g p).totalN := Nat.lt_of_lt_of_le hu (W.local_le_total hp)
  have ha := (W.glob_some hp hl).2
  rw [W.glob_own hp hu] at ha
  unfold relabel?
  rw [K.label hp hl, Option.bind_some, K.gcnode hS hp hl ht, Option.bind_some, W.isOwned hp, Option.bind_some, W.glob_own hp hu]
  have how : (if decide (first dist p ≤ C (first dist p + u) ∧ C (first dist p + u) < first dist (p + 1)) = true then (g p).rank
      else (g p).findOwner (C (first dist p + u))) = ow dist (C (first dist p + u)) := by
    have hlt := K.labels _ ha
    by_cases ho : first dist p ≤ C (first dist p + u) ∧ C (first dist p + u) < first dist (p + 1)
    · rw [if_pos (decide_eq_true ho), R.rank_eq, (W.ow_eq hp hlt).2 ho]
    · rw [if_neg (by simpa using ho)]
      exact (W.valid p hp).owns_unique (R.find_owner _ hlt) ((W.valid p hp).owner hlt)
  rw [how]
  obtain ⟨h1, h2, _⟩ := K.place hM fst ha
  rw [h1, Option.bind_some, R.dist_eq, getD_some (by unfold procs at h2; omega)]
  rfl

theorem Clustered.redistribute {L : Limits} (hsym : Symmetric dist inp) (hs : ∀ p, p < procs dist →
      shifts? L.next (L.sort p) dist (cdistOf dist C) L.calls L.limit =
        some (edgeDistribution ((List.range (procs dist)).map out), edgeDistribution ((List.range (procs dist)).map inc)))
    {z : Nat × Nat} {ex : Nat → Execution} {shuffle : List (Nat × Nat) → List (Nat × Nat)} (hex : Executions dist (fun _ => 0) (localN dist) ex)
    (hsh : ∀ l, (shuffle l).Perm l) {me : Nat} (hme : me < procs dist) : redistribute? S (procs dist) g lab L fst z ex shuffle me =
      some ((List.range (g me).totalN).map fun l => newCluster fst dist C out inc (glob g me l)) := by
  have W := K.world
  unfold redistribute?
  rw [mapM_some fun p hp => K.newLabels hM fst hS (List.mem_range.1 hp) (hs p (List.mem_range.1 hp)), Option.bind_some]
  obtain ⟨arr, h1, h2⟩ := C65_ghost_synchronization W hsym z ex hex
    (fun p u => (((List.range (procs dist)).map fun p => (List.range (localN dist p)).map fun u => newCluster fst dist C out inc (first dist p + u)).getD p
      []).getD u 0) shuffle hsh me hme (g me).totalN (Nat.le_refl _)
  rw [h1, Option.map_some]
  congr 1
  refine List.map_congr_left fun l hl => ?_
  obtain ⟨hg, hv⟩ := W.glob_some hme (List.mem_range.1 hl)
  have ho := (W.valid me hme).owner hv
  have hb := ((W.valid me hme).owns_iff' ho.lt).1 ho
  rw [h2 l _ _ hg ho]
  have hq := ho.lt
  generalize findInDistribution (glob g me l) dist = q at hb hq ⊢
  have hs' := W.succ_first hq
  rw [List.getD_eq_getElem?_getD, List.getD_eq_getElem?_getD, List.getElem?_map, List.getElem?_range hq, Option.map_some, Option.getD_some,
    List.getElem?_map, List.getElem?_range (by omega), Option.map_some, Option.getD_some, Nat.add_sub_cancel' hb.1]

omit hS in
theorem Clustered.new_clustered : Clustered dist inp g (fun me => (List.range (g me).totalN).map fun l => newCluster fst dist C out inc (glob g me l))
    (newCluster fst dist C out inc) := by
  refine ⟨K.world, fun a ha => (K.new_owner hM fst ha).1, fun p hp l v hlv => ?_, K.nodes, K.edges⟩
  have hg : glob g p l = v := by unfold glob; rw [hlv]; rfl
  show ((List.range (g p).totalN).map _)[l]? = _
  rw [List.getElem?_map, List.getElem?_range (lt_total hlv), Option.map_some, hg]

end Verif.Dist
