import Verif.Grid.Steps

/-!
# C45: grid communication routes every message to its addressee
-/

namespace Verif.Grid
variable {α : Type}

/-- **C45.**  For every number of ranks and every matrix of messages: no step accesses a buffer out of bounds, the counts of all
collective operations fit together, and the receiver of each rank is called exactly once for each rank, with the true
sender and exactly the messages that this sender has for the rank, in their order. -/
theorem C45_grid (N : Nat) (hN : 0 < N) (z : α) (send : Nat → List (List α)) (hs : ∀ src, src < N → (send src).length = N) (me : Nat) (hme : me < N) :
    ∃ calls, sparseAlltoallGrid? N z send me = some calls ∧
      calls.Perm ((List.range N).map fun src => (src, (send src).getD me [])) := by
  have hbufs : (List.range N).mapM (fun pe => dense? N z (send pe)) = some ((List.range N).map fun pe => (send pe).flatten) :=
    mapM_some fun pe hpe => dense_ok z _ (hs pe (List.mem_range.1 hpe))
  have hin : Input N (fun src dst => (send src).getD dst []) (fun pe => ((List.range N).map fun pe => (send pe).flatten).getD pe [])
      (fun pe => (send pe).map List.length) := by
    refine ⟨hN, fun src h => ⟨[], ?_⟩, fun src h => ?_⟩
    · rw [List.append_nil, List.getD_eq_getElem _ _ (by simpa using h), List.getElem_map, List.getElem_range, List.flatMap_def]
      congr 1
      refine List.ext_getElem (by simp [hs src h]) fun i h1 h2 => ?_
      simp [h1]
    · refine List.ext_getElem (by simp [hs src h]) fun i h1 h2 => ?_
      have : i < (send src).length := by simpa using h1
      simp [this]
  have he : sparseAlltoallGrid? N z send me =
      some ((List.range (numFullCols N)).flatMap fun c => (members N c).map fun src => (src, (send src).getD me [])) := by
    unfold sparseAlltoallGrid?
    rw [hbufs]
    exact exchange_ok z hin hme
  refine ⟨_, he, ?_⟩
  · have := (members_perm hN).map fun src => (src, (send src).getD me [])
    rw [List.map_flatMap] at this
    exact this

/-- **C45, one buffer.**  The same for the variant that gets the messages for all ranks in one buffer, with their numbers; the
buffer may be longer. -/
theorem C45_grid_dense (N : Nat) (hN : 0 < N) (z : α) (send : Nat → Nat → List α) (data : Nat → List α) (counts : Nat → List Nat)
    (hd : ∀ src, src < N → ∃ rest, data src = (List.range N).flatMap (send src) ++ rest)
    (hc : ∀ src, src < N → counts src = (List.range N).map fun dst => (send src dst).length) (me : Nat) (hme : me < N) :
    ∃ calls, exchange? N z data counts me = some calls ∧ calls.Perm ((List.range N).map fun src => (src, send src me)) := by
  refine ⟨_, exchange_ok z ⟨hN, hd, hc⟩ hme, ?_⟩
  have := (members_perm hN).map fun src => (src, send src me)
  rw [List.map_flatMap] at this
  exact this

/-- **C45, two hops.**  A message travels within the virtual column of its sender and then within the row of its addressee: the rank
in between exists and is unique. -/
theorem C45_two_hops (N src dst : Nat) (hN : 0 < N) (hs : src < N) (hd : dst < N) :
    ∃ mid, mid < N ∧ mid ∈ colComm N src ∧ dst ∈ rowComm N mid ∧ col N mid = virtualCol N src ∧
      ∀ mid', mid' < N → row N mid' = row N dst → col N mid' = virtualCol N src → mid' = mid := by
  have hv := virtualCol_lt hN hs
  obtain ⟨r, c, a⟩ := at_of_lt hN hd
  have hc : virtualCol N src < numColsInRow N r := Nat.lt_of_lt_of_le hv (full_le_cols N r)
  have b : At N (rankAt N r (virtualCol N src)) r (virtualCol N src) := ⟨hN, a.row, hc, rfl⟩
  refine ⟨rankAt N r (virtualCol N src), b.lt, ?_, ?_, b.hcol, ?_⟩
  · rw [colComm_eq hN hv, mem_members hN hv, b.vcol, if_pos hv]
    exact ⟨b.lt, rfl⟩
  · rw [b.rowComm, a.eq]
    exact List.mem_map.2 ⟨c, List.mem_range.2 a.col, rfl⟩
  · intro mid' hlt h1 h2
    obtain ⟨r', c', a'⟩ := at_of_lt hN hlt
    rw [a'.hrow, a.hrow] at h1
    rw [a'.hcol] at h2
    rw [a'.eq, h1, h2]

/-- `C45_grid`, `C45_grid_dense`, `C45_two_hops`: seven ranks do not fill a grid: there are two rows, of four and three ranks, and
rank 3 is alone in the last column.  Rank `i` sends `[10 i + j]` to rank `j`. -/
example : sq 7 = 2 ∧ numFullCols 7 = 3 ∧ partialCol 7 = 1 ∧ virtualCol 7 3 = 0 ∧
    (∃ calls, sparseAlltoallGrid? 7 0 (fun src => (List.range 7).map fun dst => [10 * src + dst]) 3 = some calls ∧
      calls.length = 7 ∧ (6, [63]) ∈ calls) ∧
    ∃ calls, exchange? 7 0 (fun src => (List.range 7).flatMap fun dst => [10 * src + dst]) (fun _ => List.replicate 7 1) 6 = some calls ∧
      calls.length = 7 ∧ (3, [36]) ∈ calls := by
  have hsq : Nat.sqrt 7 = 2 := by decide +kernel
  have h1 : sq 7 = 2 := hsq
  have h2 : numFullCols 7 = 3 := by unfold numFullCols; rw [h1]
  have h3 : partialCol 7 = 1 := by unfold partialCol; rw [h1, h2]
  have h4 : numCols 7 = 4 := by unfold numCols; rw [h1]
  refine ⟨h1, h2, h3, by simp [virtualCol, col, row, fullRect, h2, h3, h4], ?_, ?_⟩
  · obtain ⟨calls, e, hp⟩ := C45_grid 7 (by decide) 0 (fun src => (List.range 7).map fun dst => [10 * src + dst]) (fun _ _ => by simp) 3 (by decide)
    exact ⟨calls, e, hp.length_eq, hp.mem_iff.2 (by decide)⟩
  · obtain ⟨calls, e, hp⟩ := C45_grid_dense 7 (by decide) 0 (fun src dst => [10 * src + dst]) _ (fun _ => List.replicate 7 1)
      (fun src _ => ⟨[], (List.append_nil _).symm⟩) (fun _ _ => rfl) 6 (by decide)
    exact ⟨calls, e, hp.length_eq, hp.mem_iff.2 (by decide)⟩

end Verif.Grid
