import Verif.Dist.RearrangeWorld
import Verif.Dist.ReplicateProps
import Verif.Dist.ColoredLPOrder

/-!
# C78: a distributed graph may be renumbered without the caller noticing
-/

namespace Verif.Dist
open Verif.Math Verif.Permute

variable {dist : List Nat} {inp inp' : Nat → Input} {g : Nat → DGraph} {perm : Nat → NodePermutations} {ρ : Nat → Nat}

theorem undirected_symmetric (V : ∀ p, p < procs dist → Valid dist p (inp p)) (hu : Undirected dist inp) : Symmetric dist inp := by
  intro a b h
  obtain ⟨w, h⟩ := (isEdge_edges V).1 h
  refine (isEdge_edges V).2 ⟨w, ?_⟩
  exact hu.mem_iff.1 (List.mem_map.2 ⟨_, h, rfl⟩)

theorem permutations_range (hp : Permutations dist perm) {p : Nat} (h : p < procs dist) :
    ((List.range (localN dist p)).map (perm p).oldToNew).Perm (List.range (localN dist p)) :=
  perm_of_inj (fun u hu => (hp p h u hu).1) fun u v hu hv he => by
    rw [← (hp p h u hu).2, ← (hp p h v hv).2, he]

/-- **C78, the graph.**  Each process permutes its nodes.  Whatever the threads do, afterwards the processes hold the same graph with
new numbers: the arrays, the ghost nodes and the hash tables of all processes describe it (`World`), each node has the same neighbours,
edge weights and weight as before, and the processes know the same weights of their nodes and ghost nodes as before. -/
theorem C78_rearranged_graph (W : World dist inp g) (hst : Stored dist inp g) (hu : Undirected dist inp) (hp : Permutations dist perm)
    (hρ : Renames dist perm ρ) (z : Nat × Nat) (runs : Nat → PermuteRun) (hruns : Runs dist runs) (ex : Nat → Execution)
    (hex : Executions dist (fun _ => 0) (localN dist) ex) (shuffle : Nat → List (Nat × Nat × Nat) → List (Nat × Nat × Nat))
    (hsh : ∀ p l, (shuffle p l).Perm l) :
    ∃ g' inp', (∀ p, p < procs dist → rearranged? (procs dist) z g perm runs ex (shuffle p) p = some (g' p)) ∧
      World dist inp' g' ∧ Stored dist inp' g' ∧ Renumbered dist perm ρ inp inp' ∧
      ∀ p l v, p < procs dist → (g p).localToGlobal? l = some v →
        ∃ l', (g' p).localToGlobal? l' = some (ρ v) ∧ (g' p).nodeWeight? l' = (g p).nodeWeight? l := by
  have hsym := undirected_symmetric W.valid hu
  have h : ∀ p, ∃ G I, p < procs dist → rearranged? (procs dist) z g perm runs ex (shuffle p) p = some G ∧ Valid dist p I ∧ Represents dist p I G ∧
      (G.nodes = I.xadj ∧ G.edges.length = I.adjncy.length ∧ G.edgeWeights = I.adjwgt ∧
        ∃ rest, G.nodeWeights = I.vwgt ++ rest ∧ (I.vwgt = [] → rest = [])) ∧
      (∀ u, u < localN dist p → I.neighbours ((perm p).oldToNew u) = (((inp p).neighbours u).map fun x => (ρ x.1, x.2)).reverse) ∧
      (∀ u, u < localN dist p → I.nodeWeight ((perm p).oldToNew u) = (inp p).nodeWeight u) ∧
      ∀ l v, (g p).localToGlobal? l = some v → ∃ l', G.localToGlobal? l' = some (ρ v) ∧ G.nodeWeight? l' = (g p).nodeWeight? l := by
    intro p
    by_cases hpp : p < procs dist
    · obtain ⟨G, I, h⟩ := W.rearranged_one hst hsym hp hρ z hruns hex (shuffle := shuffle p) (hsh p) hpp
      exact ⟨G, I, fun _ => h⟩
    · exact ⟨⟨0, [], [], [], [], [], [], [], []⟩, ⟨[], [], [], []⟩, fun h => absurd h hpp⟩
  choose G I hGI using h
  refine ⟨G, I, fun p hpp => (hGI p hpp).1, ⟨W.some_process, fun p hpp => (hGI p hpp).2.1, fun p hpp => (hGI p hpp).2.2.1⟩,
    ⟨fun p hpp => (hGI p hpp).2.2.2.1.1, fun p hpp => (hGI p hpp).2.2.2.1.2.1, fun p hpp => (hGI p hpp).2.2.2.1.2.2.1,
      fun p hpp => (hGI p hpp).2.2.2.1.2.2.2⟩, ⟨?_, fun p hpp => (hGI p hpp).2.2.2.2.2.1⟩, fun p l v hpp => (hGI p hpp).2.2.2.2.2.2 l v⟩
  intro p hpp u huu
  rw [(hGI p hpp).2.2.2.2.1 u huu]
  exact List.reverse_perm _

/-! ## Partitions -/

theorem flatMap_perm {α β : Type} {f f' : α → List β} : ∀ {l : List α}, (∀ x, x ∈ l → (f x).Perm (f' x)) → (l.flatMap f).Perm (l.flatMap f')
  | [], _ => List.Perm.refl _
  | a :: l, h => by
    rw [List.flatMap_cons, List.flatMap_cons]
    exact (h a List.mem_cons_self).append (flatMap_perm fun x hx => h x (List.mem_cons_of_mem _ hx))

/-- The edges of the renumbered graph. -/
theorem renumbered_edges (hp : Permutations dist perm) (hρ : Renames dist perm ρ) (h : Renumbered dist perm ρ inp inp') :
    (edges dist inp').Perm ((edges dist inp).map fun e => (ρ e.1, ρ e.2.1, e.2.2)) := by
  unfold edges
  rw [List.map_flatMap]
  refine flatMap_perm fun p hpp => ?_
  rw [List.mem_range] at hpp
  rw [List.map_flatMap]
  refine (((permutations_range hp hpp).symm).flatMap_right _).trans ?_
  rw [List.flatMap_map]
  refine flatMap_perm fun u hu => ?_
  rw [List.mem_range] at hu
  refine ((h.neighbours p hpp u hu).map _).trans ?_
  rw [List.map_map, List.map_map]
  refine List.Perm.of_eq (List.map_congr_left fun x _ => ?_)
  simp only [Function.comp]
  rw [hρ p hpp u hu]

/-- **C78, the cut.**  The renumbered graph is undirected too, and each partition of it cuts as much as the partition of the original
graph in which each node has the block of its new number. -/
theorem C78_same_cut (hp : Permutations dist perm) (hρ : Renames dist perm ρ) (h : Renumbered dist perm ρ inp inp')
    (hu : Undirected dist inp) :
    Undirected dist inp' ∧ ∀ P' : Nat → Nat, cut dist inp (fun a => P' (ρ a)) = cut dist inp' P' := by
  have he := renumbered_edges hp hρ h
  have hu' : Undirected dist inp' := by
    unfold Undirected
    refine (he.map _).trans (List.Perm.trans ?_ he.symm)
    rw [List.map_map]
    have := (hu.map fun e => (ρ e.1, ρ e.2.1, e.2.2))
    rw [List.map_map] at this
    exact this
  refine ⟨hu', fun P' => ?_⟩
  have h1 := directed_cut (P := fun a => P' (ρ a)) hu
  have h2 := directed_cut (P := P') hu'
  have h3 := (he.map fun e => if P' e.1 ≠ P' e.2.1 then e.2.2 else 0).sum_eq
  rw [List.map_map] at h3
  have h4 : ((edges dist inp).map fun e => if P' (ρ e.1) ≠ P' (ρ e.2.1) then e.2.2 else 0).sum =
      ((edges dist inp).map ((fun e => if P' e.1 ≠ P' e.2.1 then e.2.2 else 0) ∘ fun e => (ρ e.1, ρ e.2.1, e.2.2))).sum := rfl
  rw [← h4] at h3
  omega

/-- **C78, the block weights.**  With the weights of the nodes after the renumbering, each block of a partition of the renumbered graph is
as heavy as the same block of the original graph. -/
theorem C78_same_block_weights (V : Valid dist 0 (inp 0)) (hp : Permutations dist perm) (hρ : Renames dist perm ρ)
    (h : Renumbered dist perm ρ inp inp') (Wt : Nat → Int) (hW : HasWeights dist inp Wt) :
    ∀ Wt', HasWeights dist inp' Wt' → ∀ (P' : Nat → Nat) (b : Nat),
      blockWeight dist Wt (fun a => P' (ρ a)) b = blockWeight dist Wt' P' b := by
  intro Wt' hW' P' b
  unfold blockWeight
  rw [sum_filter_map, sum_filter_map]
  have t := fun F => tile_sum (dist := dist) V.zero V.sorted F (procs dist) (Nat.le_refl _)
  show ((List.range (first dist (procs dist))).map _).sum = ((List.range (first dist (procs dist))).map _).sum
  rw [← t, ← t]
  congr 1
  refine List.map_congr_left fun p hpp => ?_
  rw [List.mem_range] at hpp
  have := ((permutations_range hp hpp).map fun u => if decide (P' (first dist p + u) = b) = true then Wt' (first dist p + u) else 0).sum_eq
  rw [← this, List.map_map]
  congr 1
  refine List.map_congr_left fun u hu => ?_
  rw [List.mem_range] at hu
  show (if decide (P' (ρ (first dist p + u)) = b) = true then Wt (first dist p + u) else 0) =
    if decide (P' (first dist p + (perm p).oldToNew u) = b) = true then Wt' (first dist p + (perm p).oldToNew u) else 0
  rw [hρ p hpp u hu, hW p hpp u hu, hW' p hpp _ (hp p hpp u hu).1, h.weight p hpp u hu]

/-- **C78.**  A distributed graph is renumbered, a partition of the renumbered graph is computed, and each process copies the blocks of
its nodes to the array of the caller.  Then the copy succeeds, the blocks in the arrays are below `k` if those of the partition are, and
cut and block weights of the partition in the arrays, on the graph that the caller passed, are those of the computed partition on the
renumbered graph. -/
theorem C78_returned_partition (W : World dist inp g) (hst : Stored dist inp g) (hu : Undirected dist inp) (hp : Permutations dist perm)
    (z : Nat × Nat) (runs : Nat → PermuteRun) (hruns : Runs dist runs) (ex : Nat → Execution)
    (hex : Executions dist (fun _ => 0) (localN dist) ex) (shuffle : Nat → List (Nat × Nat × Nat) → List (Nat × Nat × Nat))
    (hsh : ∀ p l, (shuffle p l).Perm l) :
    ∃ g' inp', (∀ p, p < procs dist → rearranged? (procs dist) z g perm runs ex (shuffle p) p = some (g' p)) ∧
      World dist inp' g' ∧ Undirected dist inp' ∧
      ∀ (part : Nat → List Nat) (P' : Nat → Nat), Knows dist g' part P' →
        ∃ out : Nat → List Nat, (∀ p, p < procs dist → copyBack? (g' p).n (perm p) (part p) = some (out p) ∧ (out p).length = localN dist p) ∧
          (∀ p, p < procs dist → ∀ b, b ∈ out p → ∃ a, a < globalN dist ∧ b = P' a) ∧
          ∀ P : Nat → Nat, (∀ p, p < procs dist → ∀ u, u < localN dist p → (out p)[u]? = some (P (first dist p + u))) →
            cut dist inp P = cut dist inp' P' ∧
            ∀ Wt Wt', HasWeights dist inp Wt → HasWeights dist inp' Wt' → ∀ b, blockWeight dist Wt P b = blockWeight dist Wt' P' b := by
  let ρ : Nat → Nat := fun a => first dist (ow dist a) + (perm (ow dist a)).oldToNew (a - first dist (ow dist a))
  have hρ : Renames dist perm ρ := by
    intro p hpp u huu
    show first dist (ow dist _) + _ = _
    rw [(W.own_at hpp huu).1, Nat.add_sub_cancel_left]
  obtain ⟨g', inp', h1, W', _, h3, _⟩ := C78_rearranged_graph W hst hu hp hρ z runs hruns ex hex shuffle hsh
  obtain ⟨hu', hcut⟩ := C78_same_cut hp hρ h3 hu
  refine ⟨g', inp', h1, W', hu', fun part P' hk => ?_⟩
  refine ⟨fun p => (List.range (localN dist p)).map fun u => P' (ρ (first dist p + u)), fun p hpp => ⟨?_, by simp⟩, ?_, ?_⟩
  · unfold copyBack?
    rw [(W'.represents p hpp).n_eq]
    refine mapM_some fun u huu => ?_
    rw [List.mem_range] at huu
    rw [hk p hpp ((perm p).oldToNew u) _ ((W'.represents p hpp).own _ (hp p hpp u huu).1), hρ p hpp u huu]
  · intro p hpp b hb
    obtain ⟨u, huu, rfl⟩ := List.mem_map.1 hb
    rw [List.mem_range] at huu
    refine ⟨_, ?_, rfl⟩
    rw [hρ p hpp u huu]
    exact owned_lt W hpp (hp p hpp u huu).1
  · intro P hP
    have hPρ : ∀ a, a < globalN dist → P a = P' (ρ a) := by
      intro a ha
      have hb := W.ow_bounds ha
      have hl : a - first dist (ow dist a) < localN dist (ow dist a) := by unfold localN; omega
      have := hP _ hb.1 _ hl
      rw [List.getElem?_map, List.getElem?_range hl, Option.map_some, show first dist (ow dist a) + (a - first dist (ow dist a)) = a by omega] at this
      exact (Option.some.inj this).symm
    have hcong : cut dist inp P = cut dist inp (fun a => P' (ρ a)) := by
      unfold cut
      congr 2
      refine List.filter_congr fun e he => ?_
      have := W.edge_lt ((isEdge_edges W.valid).2 ⟨e.2.2, he⟩)
      rw [hPρ _ this.1, hPρ _ this.2]
    refine ⟨hcong.trans (hcut P'), fun Wt Wt' hW hW' b => ?_⟩
    rw [← C78_same_block_weights (W.valid 0 W.some_process) hp hρ h3 Wt hW Wt' hW' P' b]
    unfold blockWeight
    congr 2
    refine List.filter_congr fun a ha => ?_
    rw [hPρ a (List.mem_range.1 ha)]

/-! ## The permutations -/

theorem bucketOf_front {d : Nat} (hd : d < 2 ^ 32) : bucketOf false d = some (if d = 0 then 0 else Nat.log2 d + 1) := by
  unfold bucketOf
  by_cases h : d = 0
  · rw [if_pos h, if_pos h]; rfl
  · rw [if_neg h, if_neg h, degreeBucket_eq hd, if_neg h]

/-- **C78, degree buckets.**  The permutation by degree buckets is a permutation; nodes without neighbours come first, then the nodes
sorted by the logarithm of their degrees, and nodes with equal logarithms keep their order. -/
theorem C78_degree_buckets {rank : Nat} {i : Input} {G : DGraph} (V : Valid dist rank i) (hG : G.nodes = i.xadj) (hm : i.adjncy.length < 2 ^ 32)
    (maxConc : Nat) (hc : 0 < maxConc) (garbage : Nat → Nat) (calls1 calls2 : List (Nat × Nat × Nat)) (order : List Nat)
    (h1 : calls1.Perm (deterministicForCalls maxConc 0 (localN dist rank))) (h2 : calls2.Perm (deterministicForCalls maxConc 0 (localN dist rank)))
    (h3 : order.Perm (List.range (localN dist rank))) :
    let p := degreePermutation maxConc G garbage calls1 calls2 order
    (∀ u, u < localN dist rank → p.oldToNew u < localN dist rank ∧ p.newToOld (p.oldToNew u) = u) ∧
    ∀ u v, u < localN dist rank → v < localN dist rank →
      (p.oldToNew u < p.oldToNew v ↔
        ((i.neighbours u).length = 0 ∧ 0 < (i.neighbours v).length) ∨
        (0 < (i.neighbours u).length ∧ 0 < (i.neighbours v).length ∧ Nat.log2 (i.neighbours u).length < Nat.log2 (i.neighbours v).length) ∨
        (((i.neighbours u).length = 0 ↔ (i.neighbours v).length = 0) ∧ Nat.log2 (i.neighbours u).length = Nat.log2 (i.neighbours v).length ∧ u < v)) := by
  intro p
  have hn : G.n = localN dist rank := by
    unfold DGraph.n
    rw [hG, V.xadj_length]; rfl
  have hlen : ∀ u, (i.neighbours u).length = i.xadj.getD (u + 1) 0 - i.xadj.getD u 0 := by
    intro u
    unfold Input.neighbours
    simp
  have hlt : ∀ u, u < localN dist rank → (i.neighbours u).length < 2 ^ 32 := by
    intro u hu
    rw [hlen]
    have := V.xadj_mono (i := u + 1) (j := localN dist rank) hu (Nat.le_refl _)
    rw [V.xadj_last] at this
    omega
  obtain ⟨bk, hbk⟩ : ∃ bk : Nat → Nat, bk = fun u => (bucketOf false (G.nodes.getD (u + 1) 0 - G.nodes.getD u 0)).getD 0 := ⟨_, rfl⟩
  have hb : ∀ u, u < localN dist rank → bk u = if (i.neighbours u).length = 0 then 0 else Nat.log2 (i.neighbours u).length + 1 := by
    intro u hu
    rw [hbk]
    dsimp only
    rw [hG, ← hlen, bucketOf_front (hlt u hu)]
    rfl
  have hbn : ∀ u, u < localN dist rank → bk u < numDegreeBuckets := by
    intro u hu
    rw [hb u hu]
    unfold numDegreeBuckets
    split
    · omega
    · next h0 => have := log2_lt h0 (hlt u hu); omega
  have hpe : p = byBuckets maxConc (localN dist rank) numDegreeBuckets bk garbage calls1 calls2 order := by
    show degreePermutation maxConc G garbage calls1 calls2 order = _
    unfold degreePermutation
    rw [hn, hbk]
  obtain ⟨b1, _, b3⟩ := C22_bijection_sorted_stable maxConc (localN dist rank) numDegreeBuckets bk garbage hc hbn calls1 calls2 order h1 h2 h3
  rw [← hpe] at b1 b3
  refine ⟨b1, fun u v hu hv => ?_⟩
  rw [b3 u v hu hv, hb u hu, hb v hv]
  generalize (i.neighbours u).length = a
  generalize (i.neighbours v).length = b
  by_cases ha : a = 0 <;> by_cases hb : b = 0
  · subst ha; subst hb; simp
  · subst ha; simp [hb]; omega
  · subst hb; simp [ha]
  · have : 0 < a := by omega
    have : 0 < b := by omega
    simp only [ha, hb, if_false]
    simp only [false_and, false_or, iff_self, true_and, *]
    omega

/-! ## The permutation by colours -/

variable {n C : Nat} {col : Nat → Nat}

theorem sort_node_fold (hcol : ∀ u, u < n → col u < C) : ∀ (R D : List Nat) (s : (Nat → Nat) × (Nat → Nat) × (Nat → Nat)),
    (D ++ R).Perm (List.range n) → SortedSoFar n C col D (s.1, s.2.1) →
    (∀ u, u ∈ D → s.1 (col u) ≤ s.2.2 u ∧ s.2.2 u < below n col (col u + 1) ∧ s.2.1 (s.2.2 u) = u) →
    ∃ s', R.foldlM (sortNode? n C col) s = some s' ∧ SortedSoFar n C col (D ++ R) (s'.1, s'.2.1) ∧
      ∀ u, u ∈ D ++ R → s'.1 (col u) ≤ s'.2.2 u ∧ s'.2.2 u < below n col (col u + 1) ∧ s'.2.1 (s'.2.2 u) = u
  | [], D, s, _, I, J => ⟨s, rfl, by rw [List.append_nil]; exact I, by rw [List.append_nil]; exact J⟩
  | u :: R, D, s, hp, I, J => by
    obtain ⟨s1, h1, h2⟩ := place_node hp hcol I
    have hs : s1 = (upd s.1 (col u) (s.1 (col u) - 1), upd s.2.1 (s.1 (col u) - 1) u) ∧ 0 < s.1 (col u) := by
      unfold placeNode? at h1
      split at h1
      · next hc => exact ⟨(Option.some.inj h1).symm, hc.2.1⟩
      · cases h1
    have e : D ++ u :: R = (D ++ [u]) ++ R := by rw [List.append_assoc]; rfl
    have hnd : (D ++ u :: R).Nodup := hp.nodup_iff.2 List.nodup_range
    have huD : u ∉ D := fun h => (List.disjoint_of_nodup_append hnd) h List.mem_cons_self
    have hsz := I.size (col u)
    dsimp only at hsz
    have htot : ∀ c, cnt col D c + ((if col u = c then 1 else 0) + cnt col R c) = cnt col (List.range n) c := by
      intro c
      rw [← cnt_perm hp c, cnt_append, cnt_cons]
    have hlow : ∀ c, below n col c + (if col u = c then 1 else 0) ≤ s.1 c := by
      intro c
      have h3 := I.size c
      have h4 := htot c
      rw [below_succ] at h3
      dsimp only at h3
      omega
    have h0 := hlow (col u)
    rw [if_pos rfl] at h0
    obtain ⟨s', h3, h4, h5⟩ := sort_node_fold hcol R (D ++ [u]) (s1.1, s1.2, upd s.2.2 u (s.1 (col u) - 1)) (by rw [← e]; exact hp) h2 (by
      intro v hv
      rw [hs.1]
      dsimp only
      rcases List.mem_append.1 hv with hv | hv
      · have hne : v ≠ u := fun h => huD (h ▸ hv)
        obtain ⟨a1, a2, a3⟩ := J v hv
        rw [upd_ne _ _ hne]
        have hpos : s.2.2 v ≠ s.1 (col u) - 1 := by
          intro he
          by_cases hc : col v = col u
          · rw [hc] at a1; omega
          · have b1 := hlow (col v)
            exact hc (class_unique (n := n) (col := col) (i := s.2.2 v) (by omega) a2 (by omega) (by omega))
        refine ⟨?_, a2, by rw [upd_ne _ _ hpos]; exact a3⟩
        by_cases hc : col v = col u
        · rw [hc, upd_same]; rw [hc] at a1; omega
        · rw [upd_ne _ _ hc]; exact a1
      · have : v = u := by simpa using hv
        subst this
        rw [upd_same, upd_same, upd_same]
        exact ⟨Nat.le_refl _, by omega, rfl⟩)
    refine ⟨s', ?_, by rw [e]; exact h4, by rw [e]; exact h5⟩
    rw [List.foldlM_cons]
    unfold sortNode?
    rw [h1]
    exact h3

/-- The permutation of one process by colours. -/
theorem color_permutation (hcol : ∀ u, u < n → col u < C) {order : List Nat} (ho : order.Perm (List.range n)) :
    ∃ p, colorPermutation? n C col order = some p ∧ (∀ u, u < n → p.oldToNew u < n ∧ p.newToOld (p.oldToNew u) = u) ∧
      ∀ u v, u < n → v < n → col u < col v → p.oldToNew u < p.oldToNew v := by
  obtain ⟨s, h1, h2, h3⟩ := sort_node_fold (C := C) hcol order [] (colorSums n col, fun _ => 0, fun _ => 0) (by rw [List.nil_append]; exact ho)
    ⟨fun c => by rw [← colorSums_below]; rfl, fun c _ i h1 h2 => by dsimp only at h1; rw [← colorSums_below] at h2; omega,
      fun c d i j _ _ h1 h2 => by dsimp only at h1; rw [← colorSums_below] at h2; omega⟩ (fun _ h => absurd h List.not_mem_nil)
  rw [List.nil_append] at h2 h3
  have hs : ∀ c, s.1 c = below n col c := by
    intro c
    have h4 := h2.size c
    rw [below_succ, cnt_perm ho c] at h4
    dsimp only at h4
    omega
  have hm : ∀ u, u < n → u ∈ order := fun u hu => ho.mem_iff.2 (List.mem_range.2 hu)
  refine ⟨⟨s.2.2, s.2.1⟩, by unfold colorPermutation?; rw [h1]; rfl, fun u hu => ?_, fun u v hu hv hc => ?_⟩
  · obtain ⟨_, a2, a3⟩ := h3 u (hm u hu)
    exact ⟨Nat.lt_of_lt_of_le a2 (below_le _), a3⟩
  · obtain ⟨_, a2, _⟩ := h3 u (hm u hu)
    obtain ⟨b1, _, _⟩ := h3 v (hm v hv)
    rw [hs] at b1
    have := below_mono (n := n) (col := col) (show col u + 1 ≤ col v from hc)
    show s.2.2 u < s.2.2 v
    omega

/-- **C78, colouring.**  If each process has nodes and the processes have coloured the nodes, the order by colours is a permutation on
each process, and nodes with smaller colours come first. -/
theorem C78_colors (W : World dist inp g) (hne : ∀ p, p < procs dist → 0 < localN dist p) (arr : Nat → Nat → Nat) (order : Nat → List Nat)
    (ho : ∀ p, p < procs dist → (order p).Perm (List.range (localN dist p))) :
    ∃ perm, colorPermutations? (procs dist) g arr order = some perm ∧ Permutations dist perm ∧
      ∀ p, p < procs dist → ∀ u v, u < localN dist p → v < localN dist p → arr p u < arr p v → (perm p).oldToNew u < (perm p).oldToNew v := by
  let mx : Nat → Nat := fun p => ((List.range (g p).totalN).map (arr p)).foldl max 0 + 1
  have hl : ((List.range (procs dist)).mapM fun p => localColors? (g p).totalN (arr p)) = some ((List.range (procs dist)).map mx) := by
    refine mapM_some fun p hp => ?_
    rw [List.mem_range] at hp
    unfold localColors?
    rw [if_neg]
    have := (W.represents p hp).total
    have := hne p hp
    omega
  obtain ⟨C, hC⟩ : ∃ C, C = ((List.range (procs dist)).map mx).foldl max 0 := ⟨_, rfl⟩
  have hcol : ∀ p, p < procs dist → ∀ u, u < localN dist p → arr p u < C := by
    intro p hp u hu
    have h1 := (le_foldl_max' ((List.range (g p).totalN).map (arr p)) 0).2 (arr p u) (List.mem_map.2 ⟨u, List.mem_range.2 (by
      have := (W.represents p hp).total; omega), rfl⟩)
    have h2 := (le_foldl_max' ((List.range (procs dist)).map mx) 0).2 (mx p) (List.mem_map.2 ⟨p, List.mem_range.2 hp, rfl⟩)
    have h3 : mx p = ((List.range (g p).totalN).map (arr p)).foldl max 0 + 1 := rfl
    omega
  obtain ⟨r, hr1, hr2⟩ := forAll_ok (N := procs dist) (⟨fun _ => 0, fun _ => 0⟩ : NodePermutations)
    (f := fun p => colorPermutation? (g p).n C (arr p) (order p))
    (Q := fun p q => (∀ u, u < localN dist p → q.oldToNew u < localN dist p ∧ q.newToOld (q.oldToNew u) = u) ∧
      ∀ u v, u < localN dist p → v < localN dist p → arr p u < arr p v → q.oldToNew u < q.oldToNew v) (by
    intro p hp
    rw [(W.represents p hp).n_eq]
    exact color_permutation (hcol p hp) (ho p hp))
  refine ⟨r, ?_, fun p hp => (hr2 p hp).1, fun p hp => (hr2 p hp).2⟩
  unfold colorPermutations?
  rw [hl, Option.bind_some, ← hC]
  exact hr1

/-- **C78, colouring** is false if a process has no nodes: it takes the maximum over no colours. -/
theorem C78_colors_empty_process (W : World dist inp g) {p : Nat} (hp : p < procs dist) (h0 : localN dist p = 0) (arr : Nat → Nat → Nat)
    (order : Nat → List Nat) : colorPermutations? (procs dist) g arr order = none := by
  have ht : (g p).totalN = 0 := by
    rw [(W.represents p hp).total, h0, Nat.zero_add, List.length_eq_zero_iff, List.eq_nil_iff_forall_not_mem]
    intro v hv
    rw [W.foreign_mem hp] at hv
    obtain ⟨u, w, hu, _⟩ := (W.valid p hp).adjncy_neighbour hv.1
    omega
  unfold colorPermutations?
  cases hm : ((List.range (procs dist)).mapM fun p => localColors? (g p).totalN (arr p)) with
  | none => rfl
  | some l =>
    obtain ⟨y, _, hy⟩ := (mapM_mem hm).1 p (List.mem_range.2 hp)
    unfold localColors? at hy
    rw [if_pos ht] at hy
    cases hy

/-! ## Examples -/

/-- Process 0 rotates its three nodes, process 2 swaps its two nodes. -/
def perm3 : Nat → NodePermutations := fun p => match p with
  | 0 => ⟨fun u => [2, 0, 1].getD u 0, fun u => [1, 2, 0].getD u 0⟩
  | 1 => ⟨fun _ => 0, fun _ => 0⟩
  | _ => ⟨fun u => [1, 0].getD u 0, fun u => [1, 0].getD u 0⟩

def runs3 : Nat → PermuteRun := fun p => ⟨(List.range (localN dist3 p)).reverse, List.range (localN dist3 p), fun _ => 7, fun _ => (7, 7), fun _ => 7⟩

theorem permutations3 : Permutations dist3 perm3 := by
  unfold Permutations
  decide

theorem runs3_ok : Runs dist3 runs3 := fun _ _ => ⟨List.reverse_perm _, List.Perm.refl _⟩

/-- All hypotheses of C78 hold together. -/
example : ∃ g ex, World dist3 inp3 g ∧ Stored dist3 inp3 g ∧ Undirected dist3 inp3 ∧ Permutations dist3 perm3 ∧ Runs dist3 runs3 ∧
    Executions dist3 (fun _ => 0) (localN dist3) ex := by
  obtain ⟨g, h1, h2⟩ := stored_exists (by decide) valid3 fits3
  obtain ⟨ex, h3, _⟩ := executions3
  exact ⟨g, ex, h1, h2, undirected3, permutations3, runs3_ok, h3⟩

example : Renames dist3 perm3 (fun a => [2, 0, 1, 4, 3].getD a 0) := by
  unfold Renames
  decide

/-- The cycle of five nodes with the new numbers. -/
example : (rearranged? 3 (0, 0) g3 perm3 runs3 ex3 List.reverse 0).map (fun g => (g.nodes, g.edges, g.edgeWeights, g.nodeWeights)) =
    some ([0, 2, 4, 6], [1, 2, 4, 0, 3, 0], [2, 1, 3, 2, 10, 1], [6, 7, 5, 0, 0]) := by decide +kernel
example : (rearranged? 3 (0, 0) g3 perm3 runs3 ex3 List.reverse 0).map (fun g => (g.ghostOwner, g.ghostToGlobal, g.globalToGhost)) =
    some ([2, 2], [3, 4], [(5, 4), (4, 3)]) := by decide +kernel
example : (rearranged? 3 (0, 0) g3 perm3 runs3 ex3 id 2).map (fun g => (g.nodes, g.edges, g.edgeWeights, g.ghostToGlobal)) =
    some ([0, 2, 4], [3, 1, 0, 2], [10, 4, 4, 3], [1, 2]) := by decide +kernel

/-- The blocks of the nodes 0, 1, 2 of the caller are those of the nodes 2, 0, 1. -/
example : copyBack? 3 (perm3 0) [5, 6, 7, 8, 9] = some [7, 5, 6] := by decide

/-- Degrees 2, 0, 1, 4: the node without neighbours comes first. -/
example : ((List.range 4).map (degreePermutation 2 ⟨0, [0, 4], [0, 2, 2, 3, 7], [2, 3, 0, 0, 3, 3, 3], [], [], [], [], []⟩ (fun _ => 9)
    [(2, 4, 1), (0, 2, 0)] [(0, 2, 0), (2, 4, 1)] [3, 1, 0, 2]).oldToNew) = [2, 0, 1, 3] := by decide +kernel

/-- Two colours on one process. -/
example : (colorPermutation? 4 2 (fun u => [1, 0, 1, 0].getD u 0) [2, 0, 1, 3]).map (fun p => ((List.range 4).map p.oldToNew, (List.range 4).map p.newToOld)) =
    some ([2, 1, 3, 0], [3, 1, 0, 2]) := by decide +kernel

/-- Process 1 of the example has no nodes. -/
example : colorPermutations? 3 g3 (fun _ _ => 0) (fun p => List.range (localN dist3 p)) = none := by decide +kernel

end Verif.Dist
