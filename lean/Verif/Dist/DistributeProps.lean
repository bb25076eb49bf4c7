import Verif.Dist.Distribute
import Verif.Dist.ReplicateProps

/-!
# C70: the best of the partitions of the replicated graph reaches all processes
-/

namespace Verif.Dist
open Verif.Math

variable {dist : List Nat} {inp : Nat → Input} {g : Nat → DGraph}

/-! ## Cuts of the copies -/

theorem IsCopy.mono {c : Replica} (C : IsCopy dist inp c) : ∀ {j i : Nat}, i ≤ j → j ≤ globalN dist → c.nodes.getD i 0 ≤ c.nodes.getD j 0 := by
  intro j
  induction j with
  | zero => intro i hi _; rw [Nat.le_zero.1 hi]
  | succ j ih =>
    intro i hi hj
    rcases Nat.lt_or_ge i (j + 1) with h | h
    · exact Nat.le_trans (ih (by omega) (by omega)) (C.sorted j (by omega))
    · rw [show i = j + 1 by omega]

theorem IsCopy.adjacent {c : Replica} (C : IsCopy dist inp c) {a : Nat} (ha : a < globalN dist) : c.adjacent? a = some (c.neighbours a) := by
  unfold Replica.adjacent? Replica.neighbours
  rw [getD_some (show a < c.nodes.length by rw [C.n_eq]; omega), getD_some (show a + 1 < c.nodes.length by rw [C.n_eq]; omega)]
  show (List.range' _ _).mapM _ = _
  refine mapM_some fun e he => ?_
  rw [List.mem_range'_1] at he
  have h1 := C.sorted a ha
  have h2 := C.mono (show a + 1 ≤ globalN dist from ha) (Nat.le_refl _)
  rw [C.last] at h2
  have he' : e < globalM dist inp := by omega
  rw [getD_some (show e < c.edges.length by rw [C.m_eq]; exact he')]
  have hw : c.edgeWeight? e = some (if c.edgeWeights = [] then 1 else c.edgeWeights.getD e 0) := by
    unfold Replica.edgeWeight?
    by_cases hw : c.edgeWeights = []
    · rw [if_pos hw, if_pos hw]
    · rw [if_neg hw, if_neg hw]
      exact getDI_some (by rcases C.edge_weights with h | h; exact absurd h hw; omega)
  rw [hw]
  rfl

theorem owner_split (W : World dist inp g) {a : Nat} (ha : a < globalN dist) : ∃ p u, p < procs dist ∧ u < localN dist p ∧
    a = first dist p + u := by
  have hown := (W.valid 0 W.some_process).owner ha
  have hp := hown.lt
  have hab := ((W.valid 0 W.some_process).owns_iff' hp).1 hown
  have := first_succ W hp
  exact ⟨_, a - first dist (findInDistribution a dist), hp, by omega, by omega⟩

theorem shmTerms_eq (W : World dist inp g) {c : Replica} (C : IsCopy dist inp c) {part : List Nat} (hl : part.length = globalN dist)
    {p u : Nat} (hp : p < procs dist) (hu : u < localN dist p) :
    shmTerms? c part (first dist p + u) = some (((inp p).neighbours u).map fun x =>
      if part.getD (first dist p + u) 0 ≠ part.getD x.1 0 then x.2 else 0) := by
  have ha := owned_lt W hp hu
  unfold shmTerms?
  rw [getD_some (show _ < part.length by rw [hl]; exact ha), C.adjacent ha, C.neighbours p hp u hu]
  show ((inp p).neighbours u).mapM _ = _
  refine mapM_some fun x hx => ?_
  have hx' := (W.valid p hp).targets _ ((W.valid p hp).neighbour_mem hu hx)
  rw [getD_some (show x.1 < part.length by rw [hl]; exact hx')]
  rfl

theorem shmCut_eq (W : World dist inp g) (hu : Undirected dist inp) (hpos : ∀ e, e ∈ edges dist inp → 0 ≤ e.2.2)
    (hfit : ((edges dist inp).map (·.2.2)).sum < 2 ^ 63) {c : Replica} (C : IsCopy dist inp c) {part : List Nat}
    (hl : part.length = globalN dist) {threads : List (List Nat)} (ht : threads.flatten.Perm (List.range (globalN dist)))
    (hcut : cut dist inp (fun v => part.getD v 0) < 2 ^ 31) :
    shmCut? c part threads = some (cut dist inp fun v => part.getD v 0) := by
  have hB : (0 : Int) ≤ B64 := by decide
  let P : Nat → Nat := fun v => part.getD v 0
  let terms : Nat → List Int := fun a => (shmTerms? c part a).getD []
  have hterms : ∀ p, p < procs dist → ∀ u, u < localN dist p → terms (first dist p + u) =
      ((inp p).neighbours u).map fun x => if P (first dist p + u) ≠ P x.1 then x.2 else 0 := by
    intro p hp u hu
    show (shmTerms? c part (first dist p + u)).getD [] = _
    rw [shmTerms_eq W C hl hp hu]
    rfl
  have htotal : ((List.range (globalN dist)).map fun a => (terms a).sum).sum = 2 * cut dist inp P := by
    rw [← W.tile (fun a => (terms a).sum), ← directed_cut hu, ← edges_sum (dist := dist) (inp := inp) (fun a b w => if P a ≠ P b then w else 0)]
    congr 1
    refine List.map_congr_left fun p hp => ?_
    congr 1
    refine List.map_congr_left fun u hu => ?_
    show (terms (first dist p + u)).sum = _
    rw [hterms p (List.mem_range.1 hp) u (List.mem_range.1 hu)]
  have hle : 2 * cut dist inp P < B64 := by
    rw [← directed_cut hu]
    refine Int.lt_of_le_of_lt (sum_map_le fun e he => ?_) hfit
    have := hpos e he
    by_cases h : P e.1 ≠ P e.2.1
    · rw [if_pos h]
    · rw [if_neg h]; exact this
  have h0 : 0 ≤ cut dist inp P := by
    refine sum_nonneg fun x hx => ?_
    obtain ⟨e, he, rfl⟩ := List.mem_map.1 hx
    exact hpos e (List.mem_filter.1 he).1
  have hsum := parallelSum_ok (B := B64) hB (terms? := shmTerms? c part) (terms := terms) ht (fun a ha => by
      obtain ⟨p, u, hp, hu, rfl⟩ := owner_split W ha
      show _ = some ((shmTerms? c part (first dist p + u)).getD [])
      rw [shmTerms_eq W C hl hp hu]
      rfl) (fun a ha x hx => by
      obtain ⟨p, u, hp, hu, rfl⟩ := owner_split W ha
      rw [hterms p hp u hu] at hx
      obtain ⟨y, hy, rfl⟩ := List.mem_map.1 hx
      have := hpos _ (mem_edges hp hu hy)
      by_cases h : P (first dist p + u) ≠ P y.1
      · rw [if_pos h]; exact this
      · rw [if_neg h]) (by rw [htotal]; exact hle)
  unfold shmCut?
  rw [hsum, htotal, Option.bind_some]
  unfold halve?
  have hdiv : (2 * cut dist inp P).tdiv 2 = cut dist inp P := Int.mul_tdiv_cancel_left _ (by decide)
  rw [hdiv, if_pos]
  have hcut' : cut dist inp P < 2147483648 := hcut
  refine ⟨by omega, ?_, hcut'⟩
  show -2147483648 ≤ _
  omega

theorem minLoc_ok (cuts : List Int) (h : cuts ≠ []) : minLoc cuts < cuts.length ∧
    (∀ q, q < cuts.length → cuts.getD (minLoc cuts) 0 ≤ cuts.getD q 0) ∧
    ∀ q, q < minLoc cuts → cuts.getD (minLoc cuts) 0 < cuts.getD q 0 := by
  have h0 := List.length_pos_iff.2 h
  have key : ∀ k, k ≤ cuts.length → ∃ best : Int × Nat, (List.range k).foldl (fun (best : Int × Nat) p =>
      let c := cuts.getD p 0
      if c < best.1 ∨ (c = best.1 ∧ p < best.2) then (c, p) else best) (cuts.getD 0 0, 0) = best ∧ best.2 < cuts.length ∧
      best.1 = cuts.getD best.2 0 ∧ (∀ q, q < k → best.1 ≤ cuts.getD q 0) ∧ (best.2 < k ∨ best.2 = 0) ∧
      ∀ q, q < best.2 → best.1 < cuts.getD q 0 := by
    intro k
    induction k with
    | zero => intro _; exact ⟨_, rfl, h0, rfl, fun q hq => absurd hq (Nat.not_lt_zero _), .inr rfl, fun q hq => absurd hq (Nat.not_lt_zero _)⟩
    | succ k ih =>
      intro hk
      obtain ⟨best, h1, h2, h3, h4, h5, h6⟩ := ih (by omega)
      rw [List.range_succ, List.foldl_append, h1]
      show ∃ b, (if cuts.getD k 0 < best.1 ∨ (cuts.getD k 0 = best.1 ∧ k < best.2) then (cuts.getD k 0, k) else best) = b ∧ _
      by_cases hc : cuts.getD k 0 < best.1 ∨ (cuts.getD k 0 = best.1 ∧ k < best.2)
      · rw [if_pos hc]
        have hlt : cuts.getD k 0 < best.1 := by
          rcases hc with hc | ⟨_, hc⟩
          · exact hc
          · omega
        refine ⟨_, rfl, by show k < _; omega, rfl, fun q hq => ?_, .inl (Nat.lt_succ_self k), fun q hq => ?_⟩
        · show cuts.getD k 0 ≤ _
          rcases Nat.lt_or_ge q k with hqk | hqk
          · have := h4 q hqk; omega
          · rw [show q = k by omega]
        · have hq' : q < k := hq
          have := h4 q hq'
          show cuts.getD k 0 < _
          omega
      · rw [if_neg hc]
        refine ⟨_, rfl, h2, h3, fun q hq => ?_, by omega, h6⟩
        rcases Nat.lt_or_ge q k with hqk | hqk
        · exact h4 q hqk
        · rw [show q = k by omega]
          have := fun hlt => hc (.inl hlt)
          omega
  obtain ⟨best, h1, h2, h3, h4, _, h6⟩ := key cuts.length (Nat.le_refl _)
  have hm : minLoc cuts = best.2 := by unfold minLoc; rw [h1]
  rw [hm]
  refine ⟨h2, fun q hq => ?_, fun q hq => ?_⟩
  · rw [← h3]; exact h4 q hq
  · rw [← h3]; exact h6 q hq

theorem dist_last (W : World dist inp g) {me : Nat} (hme : me < procs dist) : (g me).dist.getLast? = some (globalN dist) := by
  have h0 := W.some_process
  rw [(W.represents me hme).dist_eq, getLast_first (by intro h; rw [h] at h0; simp [procs] at h0)]
  rfl

theorem local_global (W : World dist inp g) {me u : Nat} (hme : me < procs dist) (hu : u < (g me).totalN) :
    ∃ v, (g me).localToGlobal? u = some v ∧ v < globalN dist := by
  have R := W.represents me hme
  rcases Nat.lt_or_ge u (localN dist me) with h | h
  · exact ⟨_, R.own u h, owned_lt W hme h⟩
  · obtain ⟨v, q, h1, _, _, h4, _⟩ := R.ghost u h hu
    refine ⟨v, h1, ?_⟩
    have hq := h4.lt
    have hab := ((W.valid me hme).owns_iff' hq).1 h4
    have h6 := first_succ W hq
    have h5 := owned_lt W hq (u := v - first dist q) (by omega)
    omega

/-! ## Theorems -/

/-- **C70, best partition.**  Each process has a partition of its copy of the graph.  All processes receive the partition of the same
process `r`: no process has a partition with a smaller cut, and none before `r` has one with the same cut.  Cuts of `2^31` or more stop
the program. -/
theorem C70_best_partition (W : World dist inp g) (hu : Undirected dist inp) (hpos : ∀ e, e ∈ edges dist inp → 0 ≤ e.2.2)
    (hfit : ((edges dist inp).map (·.2.2)).sum < 2 ^ 63) (hn : globalN dist < 2 ^ 31) (c : Nat → Replica)
    (C : ∀ p, p < procs dist → IsCopy dist inp (c p)) (parts : Nat → List Nat)
    (hl : ∀ p, p < procs dist → (parts p).length = globalN dist) (threads : Nat → List (List Nat))
    (ht : ∀ p, p < procs dist → (threads p).flatten.Perm (List.range (globalN dist)))
    (hcut : ∀ p, p < procs dist → cut dist inp (fun v => (parts p).getD v 0) < 2 ^ 31) :
    ∃ r, r < procs dist ∧
      (∀ q, q < procs dist → cut dist inp (fun v => (parts r).getD v 0) ≤ cut dist inp fun v => (parts q).getD v 0) ∧
      (∀ q, q < r → cut dist inp (fun v => (parts r).getD v 0) < cut dist inp fun v => (parts q).getD v 0) ∧
      ∃ res : Nat → List Nat, (∀ me, me < procs dist → distributeBest? (procs dist) g c parts threads me = some (res me)) ∧
        Knows dist g res fun v => (parts r).getD v 0 := by
  let K : Nat → Int := fun p => cut dist inp fun v => (parts p).getD v 0
  have hcuts : (List.range (procs dist)).mapM (fun p => shmCut? (c p) (parts p) (threads p)) = some ((List.range (procs dist)).map K) :=
    mapM_some fun p hp => by
      have hp := List.mem_range.1 hp
      exact shmCut_eq W hu hpos hfit (C p hp) (hl p hp) (ht p hp) (hcut p hp)
  have hK : ∀ q, q < procs dist → ((List.range (procs dist)).map K).getD q 0 = K q := by
    intro q hq
    rw [List.getD_eq_getElem?_getD, List.getElem?_map, List.getElem?_range hq]
    rfl
  obtain ⟨m1, m2, m3⟩ := minLoc_ok ((List.range (procs dist)).map K) (by
    intro h
    have := congrArg List.length h
    rw [List.length_map, List.length_range] at this
    have := W.some_process
    simp at *
    omega)
  rw [List.length_map, List.length_range] at m1 m2
  generalize hr : minLoc ((List.range (procs dist)).map K) = r at m1 m2 m3
  refine ⟨r, m1, fun q hq => ?_, fun q hq => ?_, ?_⟩
  · have := m2 q hq; rw [hK r m1, hK q hq] at this; exact this
  · have := m3 q hq; rw [hK r m1, hK q (by omega)] at this; exact this
  · have pick : ∀ me, me < procs dist → pickBlocks? (g me) (parts r) = some ((List.range (g me).totalN).map fun u =>
        (parts r).getD (((g me).localToGlobal? u).getD 0) 0) := by
      intro me hme
      unfold pickBlocks?
      refine mapM_some fun u hu' => ?_
      obtain ⟨v, h1, h2⟩ := local_global W hme (List.mem_range.1 hu')
      rw [h1, Option.bind_some, getD_some (by rw [hl r m1]; exact h2)]
      rfl
    refine ⟨fun me => (List.range (g me).totalN).map fun u => (parts r).getD (((g me).localToGlobal? u).getD 0) 0, fun me hme => ?_, ?_⟩
    · unfold distributeBest?
      rw [hcuts]
      show (g me).dist.getLast?.bind _ = _
      rw [dist_last W hme, Option.bind_some]
      show (bcast? (globalN dist) (parts (minLoc ((List.range (procs dist)).map K))) (parts me)).bind _ = _
      rw [hr]
      have hb : bcast? (globalN dist) (parts r) (parts me) = some (parts r) := by
        unfold bcast?
        rw [if_pos ⟨hn, by rw [hl r m1], by rw [hl me hme]⟩, List.take_of_length_le (by rw [hl r m1]),
          List.drop_of_length_le (by rw [hl me hme]), List.append_nil]
      rw [hb, Option.bind_some]
      exact pick me hme
    · intro p hp l v hlv
      have hlt := lt_total hlv
      rw [List.getElem?_map, List.getElem?_range hlt]
      show some ((parts r).getD (((g p).localToGlobal? l).getD 0) 0) = _
      rw [hlv]
      rfl

/-- **C70, one partition.**  If the root has a partition of the whole graph, all processes know it afterwards. -/
theorem C70_distribute_partition (W : World dist inp g) (hsym : Symmetric dist inp) (hn : globalN dist < 2 ^ 31) (z : Nat × Nat)
    (ex : Nat → Execution) (hex : Executions dist (fun _ => 0) (localN dist) ex) (shuffle : List (Nat × Nat) → List (Nat × Nat))
    (hsh : ∀ l, (shuffle l).Perm l) (root : Nat) (hroot : root < procs dist) (global : List Nat) (hl : global.length = globalN dist) :
    ∃ res : Nat → List Nat, (∀ me, me < procs dist →
        distributePartition? (procs dist) z g ex shuffle root global me = some (res me) ∧ (res me).length = (g me).totalN) ∧
      Knows dist g res fun v => global.getD v 0 := by
  have hcount : ∀ p, p < procs dist → recvCount dist p = (localN dist p : Int) := by
    intro p hp
    have h1 := first_succ W hp
    have h2 : first dist p + localN dist p ≤ globalN dist := by
      rw [← h1]
      exact (W.valid p hp).mono (show p + 1 ≤ procs dist from hp) (by unfold procs at *; omega)
    unfold recvCount
    rw [show ((dist.getD (p + 1) 0 : Nat) : Int) - (dist.getD p 0 : Nat) = ((localN dist p : Nat) : Int) by
      unfold first at h1; omega]
    exact narrow_nat (by omega)
  have hdispl : ∀ p, p ≤ procs dist → scatterDispl dist p = (first dist p : Int) := by
    intro p
    induction p with
    | zero => intro _; rw [(W.valid 0 W.some_process).zero]; rfl
    | succ p ih =>
      intro hp
      have h1 := ih (by omega)
      unfold scatterDispl at h1 ⊢
      rw [List.range_succ, List.map_append, sum_append_int, h1, List.map_singleton, List.sum_singleton, hcount p hp, first_succ W hp]
      omega
  let val : Nat → Nat → Nat := fun p i => if i < localN dist p then global.getD (first dist p + i) 0 else 0
  have hvals : (List.range (procs dist)).mapM (fun p => scatter? (g root).dist global p (g p).n) = some ((List.range (procs dist)).map val) := by
    refine mapM_some fun p hp => ?_
    have hp := List.mem_range.1 hp
    have h1 := first_succ W hp
    have h2 : first dist p + localN dist p ≤ globalN dist := by
      rw [← h1]
      exact (W.valid p hp).mono (show p + 1 ≤ procs dist from hp) (by unfold procs at *; omega)
    rw [(W.represents root hroot).dist_eq, (W.represents p hp).n_eq]
    unfold scatter?
    rw [hdispl p (by omega), hcount p hp, Int.toNat_natCast, if_pos]
    refine ⟨by omega, ?_, rfl, by omega⟩
    show (first dist p : Int) < 2147483648
    omega
  have hval : ∀ p, p < procs dist → ((List.range (procs dist)).map val).getD p (fun _ => 0) = val p := by
    intro p hp
    rw [List.getD_eq_getElem?_getD, List.getElem?_map, List.getElem?_range hp]
    rfl
  have hsync := fun me hme => C65_ghost_synchronization W hsym z ex hex (fun p => ((List.range (procs dist)).map val).getD p fun _ => 0)
    shuffle hsh me hme (g me).totalN (Nat.le_refl _)
  have hch : ∀ me, ∃ arr : Nat → Nat, me < procs dist → syncGhosts? (procs dist) z g ex
      (fun p => ((List.range (procs dist)).map val).getD p fun _ => 0) (g me).totalN shuffle me = some arr ∧
      ∀ l v q, (g me).localToGlobal? l = some v → Owns dist q v → arr l = global.getD v 0 := by
    intro me
    by_cases hme : me < procs dist
    · obtain ⟨arr, h1, h2⟩ := hsync me hme
      refine ⟨arr, fun _ => ⟨h1, fun l v q hlv hq => ?_⟩⟩
      rw [h2 l v q hlv hq, hval q hq.lt]
      have hab := ((W.valid me hme).owns_iff' hq.lt).1 hq
      have h3 := first_succ W hq.lt
      show (if v - first dist q < localN dist q then _ else _) = _
      rw [if_pos (by omega), show first dist q + (v - first dist q) = v by omega]
    · exact ⟨fun _ => 0, fun h => absurd h hme⟩
  choose arr harr using hch
  refine ⟨fun me => (List.range (g me).totalN).map (arr me), fun me hme => ⟨?_, by rw [List.length_map, List.length_range]⟩, ?_⟩
  · unfold distributePartition?
    rw [hvals]
    show (syncGhosts? _ _ _ _ _ _ _ _).bind _ = _
    rw [(harr me hme).1]
    rfl
  · intro p hp l v hlv
    have hlt := lt_total hlv
    rw [List.getElem?_map, List.getElem?_range hlt]
    show some (arr p l) = _
    have hown : Owns dist ((g p).findOwner v) v := by
      obtain ⟨v', h1, h2⟩ := local_global W hp hlt
      rw [hlv] at h1
      rw [Option.some.inj h1]
      exact (W.represents p hp).find_owner v' h2
    rw [(harr p hp).2 l v _ hlv hown]

/-- **C70, gathering.**  Every process collects the partition that the processes know together. -/
theorem C70_gather_partition (W : World dist inp g) {part : Nat → List Nat} {P : Nat → Nat} (hk : Knows dist g part P) (hn : globalN dist < 2 ^ 31)
    (me : Nat) (hme : me < procs dist) :
    gatherPartition? (procs dist) g part me = some ((List.range (globalN dist)).map P) := by
  have hmono : ∀ p, p < procs dist → first dist p + localN dist p ≤ globalN dist := by
    intro p hp
    rw [← first_succ W hp]
    exact (W.valid p hp).mono (show p + 1 ≤ procs dist from hp) (by unfold procs at *; omega)
  have hpart : ∀ p, p < procs dist → ∀ u, u < localN dist p → (part p)[u]? = some (P (first dist p + u)) := fun p hp u hu =>
    hk p hp u _ ((W.represents p hp).own u hu)
  have hlen : ∀ p, p < procs dist → localN dist p ≤ (part p).length := by
    intro p hp
    by_contra h
    have := hpart p hp (part p).length (by omega)
    simp at this
  obtain ⟨arr, h1, h2⟩ := allgather_ok (N := procs dist) (size := globalN dist) (z := 0) (D := dist)
    (send? := fun p => sendPrefix? (part p) (g p).n) (l := fun p => (part p).take (localN dist p))
    (fun p hp => by rw [first_succ W hp]; omega) (Nat.le_refl _) hn
    (fun p hp => by
      have := hmono p hp
      rw [(W.represents p hp).n_eq, sendPrefix_ok (by omega) (hlen p hp)])
    (fun p hp => by
      have := hlen p hp
      rw [first_succ W hp, List.length_take]
      omega)
  unfold gatherPartition?
  rw [dist_last W hme]
  show (allgather? _ _ _ (g me).dist _).bind _ = _
  rw [(W.represents me hme).dist_eq, h1]
  show some ((List.range (globalN dist)).map arr) = _
  congr 1
  refine List.map_congr_left fun a ha => ?_
  obtain ⟨p, u, hp, hu, rfl⟩ := owner_split W (List.mem_range.1 ha)
  have h3 := h2 p hp u (by rw [List.length_take]; have := hlen p hp; omega)
  rw [List.getElem?_take_of_lt hu, hpart p hp u hu] at h3
  exact (Option.some.inj h3).symm

/-- **C70 says nothing about the limits of the blocks, and the code does not look at them**: whatever weights and limits the blocks have,
a partition with a smaller cut than those of all other processes is chosen, even if it is the only one that violates the limits. -/
theorem C70_limits_ignored (W : World dist inp g) (hu : Undirected dist inp) (hpos : ∀ e, e ∈ edges dist inp → 0 ≤ e.2.2)
    (hfit : ((edges dist inp).map (·.2.2)).sum < 2 ^ 63) (hn : globalN dist < 2 ^ 31) (c : Nat → Replica)
    (C : ∀ p, p < procs dist → IsCopy dist inp (c p)) (parts : Nat → List Nat)
    (hl : ∀ p, p < procs dist → (parts p).length = globalN dist) (threads : Nat → List (List Nat))
    (ht : ∀ p, p < procs dist → (threads p).flatten.Perm (List.range (globalN dist)))
    (hcut : ∀ p, p < procs dist → cut dist inp (fun v => (parts p).getD v 0) < 2 ^ 31)
    (bad : Nat) (hbad : bad < procs dist)
    (hsmall : ∀ q, q < procs dist → q ≠ bad → cut dist inp (fun v => (parts bad).getD v 0) < cut dist inp fun v => (parts q).getD v 0) :
    ∃ res : Nat → List Nat, (∀ me, me < procs dist → distributeBest? (procs dist) g c parts threads me = some (res me)) ∧
      Knows dist g res fun v => (parts bad).getD v 0 := by
  obtain ⟨r, h1, h2, _, h4⟩ := C70_best_partition W hu hpos hfit hn c C parts hl threads ht hcut
  have : r = bad := by
    by_contra h
    have h5 := hsmall r h1 h
    have h6 := h2 bad hbad
    omega
  exact this ▸ h4

/-! ## Examples -/

/-- The copy of the graph of the example, see C69. -/
def c3 : Replica := ⟨[0, 2, 4, 6, 8, 10], [1, 4, 0, 2, 1, 3, 2, 4, 3, 0], [5, 6, 7, 8, 9], [1, 10, 1, 2, 2, 3, 3, 4, 4, 10]⟩

theorem copy3 : IsCopy dist3 inp3 c3 :=
  ⟨by decide, by decide, by decide, by decide, by decide, by decide, by decide, by decide +kernel, by decide +kernel⟩

/-- Three partitions: two with two blocks and the cuts 11 and 6, and one with one block only. -/
def parts3 : Nat → List Nat := fun p => match p with | 0 => [0, 1, 1, 1, 1] | 1 => [0, 0, 1, 1, 0] | _ => [0, 0, 0, 0, 0]

example : ((List.range 3).map fun p => shmCut? c3 (parts3 p) [[4, 2], [], [0, 1, 3]]) = [some 11, some 6, some 0] := by decide +kernel

example : (∀ p, p < procs dist3 → (parts3 p).length = globalN dist3) ∧
    (∀ p, p < procs dist3 → cut dist3 inp3 (fun v => (parts3 p).getD v 0) < 2 ^ 31) ∧
    (∀ e, e ∈ edges dist3 inp3 → 0 ≤ e.2.2) ∧ ((edges dist3 inp3).map (·.2.2)).sum < 2 ^ 63 := by decide +kernel

/-- The partition with one block wins, although it violates all limits below 35, the weight of all nodes. -/
example : (List.range 3).map (distributeBest? 3 g3 (fun _ => c3) parts3 fun _ => [[4, 2], [], [0, 1, 3]]) =
    [some [0, 0, 0, 0, 0], some [], some [0, 0, 0, 0]] := by decide +kernel

/-- Without it, the second one. -/
example : (List.range 3).map (distributeBest? 3 g3 (fun _ => c3) (fun p => parts3 (p % 2)) fun _ => [[4, 2], [], [0, 1, 3]]) =
    [some [0, 0, 1, 0, 1], some [], some [1, 0, 1, 0]] := by decide +kernel

example : (List.range 3).map (distributePartition? 3 (0, 0) g3 ex3 List.reverse 1 [3, 4, 5, 6, 7]) =
    [some [3, 4, 5, 7, 6], some [], some [6, 7, 5, 3]] := by decide +kernel

example : gatherPartition? 3 g3 (fun p => match p with | 0 => [3, 4, 5, 7, 6] | 1 => [] | _ => [6, 7, 5, 3]) 1 = some [3, 4, 5, 6, 7] := by
  decide +kernel

end Verif.Dist
