import Verif.Dist.ContractTotals

/-!
# The coarse graph of one process, for the proof of C73
-/

namespace Verif.Dist
open Verif.Math

/-! ## Arrays of a graph with given neighbours -/

/-- The arrays of a graph with `n` nodes, with neighbours `nbr u`. -/
def packed (n : Nat) (nbr : Nat → List (Nat × Int)) (vwgt : List Int) : Input :=
  ⟨edgeDistribution ((List.range n).map fun u => (nbr u).length), ((List.range n).flatMap nbr).map (·.1), vwgt,
    ((List.range n).flatMap nbr).map (·.2)⟩

section
variable {n : Nat} {nbr : Nat → List (Nat × Int)} {vwgt : List Int}

theorem packed_get {u : Nat} (hu : u ≤ n) : (packed n nbr vwgt).xadj.getD u 0 = ((List.range u).flatMap nbr).length := by
  show (edgeDistribution _).getD u 0 = _
  rw [List.getD_eq_getElem?_getD, (C64_edge_distribution _ u (by rw [List.length_map, List.length_range]; exact hu)).1, ← List.map_take,
    List.take_range, Nat.min_eq_left hu, List.length_flatMap]
  rfl

theorem packed_length : (packed n nbr vwgt).xadj.length = n + 1 := by
  show (edgeDistribution _).length = _
  rw [(C64_edge_distribution _ 0 (Nat.zero_le _)).2, List.length_map, List.length_range]

theorem range_split {u : Nat} (hu : u < n) : List.range n = List.range u ++ u :: List.range' (u + 1) (n - u - 1) := by
  rw [List.range_eq_range', List.range_eq_range', show n = u + (1 + (n - u - 1)) by omega, ← List.range'_append_1, ← List.range'_append_1]
  simp

theorem packed_neighbours {u : Nat} (hu : u < n) : (packed n nbr vwgt).neighbours u = nbr u := by
  have hflat : (List.range n).flatMap nbr = (List.range u).flatMap nbr ++ (nbr u ++ (List.range' (u + 1) (n - u - 1)).flatMap nbr) := by
    rw [range_split hu, List.flatMap_append, List.flatMap_cons]
  have hlen := congrArg List.length hflat
  rw [List.length_append, List.length_append] at hlen
  have hsub : ((List.range (u + 1)).flatMap nbr).length - ((List.range u).flatMap nbr).length = (nbr u).length := by
    rw [List.range_succ, List.flatMap_append, List.length_append, List.flatMap_singleton]
    omega
  unfold Input.neighbours
  rw [packed_get (by omega), packed_get (by omega), hsub]
  have hs := slice_eq ((0, 0) : Nat × Int) ((List.range n).flatMap nbr) ((List.range u).flatMap nbr).length (nbr u).length (by omega)
  have hd : ((List.range n).flatMap nbr).drop ((List.range u).flatMap nbr).length = nbr u ++ (List.range' (u + 1) (n - u - 1)).flatMap nbr := by
    rw [hflat, List.drop_left]
  rw [hd, List.take_left] at hs
  refine Eq.trans ?_ hs.symm
  refine List.map_congr_left fun e he => ?_
  have he := (List.mem_range'_1.1 he).2
  have hlt : e < ((List.range n).flatMap nbr).length := by omega
  have h1 : (packed n nbr vwgt).adjncy.getD e 0 = (((List.range n).flatMap nbr).getD e (0, 0)).1 := by
    show (((List.range n).flatMap nbr).map (·.1)).getD e 0 = _
    rw [List.getD_eq_getElem?_getD, List.getD_eq_getElem?_getD, List.getElem?_map, List.getElem?_eq_getElem hlt]
    rfl
  have h2 : (packed n nbr vwgt).weight e = (((List.range n).flatMap nbr).getD e (0, 0)).2 := by
    unfold Input.weight
    have h3 : (packed n nbr vwgt).adjwgt = ((List.range n).flatMap nbr).map (·.2) := rfl
    rw [h3, if_neg, List.getD_eq_getElem?_getD, List.getD_eq_getElem?_getD, List.getElem?_map, List.getElem?_eq_getElem hlt]
    · rfl
    · intro h
      rw [List.map_eq_nil_iff] at h
      rw [h] at hlt
      exact absurd hlt (Nat.not_lt_zero _)
  rw [h1, h2]

end

/-- The node weights of a graph in memory matter only for its node weights. -/
theorem Represents.with_weights {dist : List Nat} {q : Nat} {i j : Input} {G : DGraph} {w : List Int} (R : Represents dist q i G)
    (h1 : j.adjncy = i.adjncy) (h2 : ∀ u, u < localN dist q → j.neighbours u = i.neighbours u)
    (hroom : if j.vwgt = [] then w = [] else G.totalN ≤ w.length)
    (hw : ∀ u, u < localN dist q → (if w = [] then some 1 else w[u]?) = some (j.nodeWeight u)) :
    Represents dist q j { G with nodeWeights := w } := by
  have hf : foreign dist q j = foreign dist q i := by unfold foreign; rw [h1]
  refine ⟨R.rank_eq, R.dist_eq, R.n_eq, ?_, R.own, ?_, R.inverse, R.inverse', ?_, ?_, hroom, hw, R.find_owner, R.is_ghost, R.map_remote⟩
  · rw [hf]; exact R.total
  · rw [hf]; exact R.ghost
  · rw [hf]; exact R.contains
  · intro u hu
    rw [h2 u hu]
    exact R.neighbours u hu

variable {C : Nat → Nat} {dist : List Nat} {inp : Nat → Input} {g : Nat → DGraph} {lab : Nat → List Nat} {S : Nat → Orders}
variable (K : Clustered dist inp g lab C)
include K
variable (hS : ∀ p, p < procs dist → (S p).Ok)
include hS

/-! ## The weights -/

theorem Clustered.addReceived {q : Nat} (hq : q < procs dist) : ∀ (l : List (Nat × Int)) (w : Nat → Int),
    (∀ x, x ∈ l → first dist q ≤ x.1 ∧ x.1 < first dist (q + 1) ∧ used C (globalN dist) x.1 = true) →
    ∃ w', l.foldlM (addReceived? (g q) (lcs dist C q) (cnum dist C q)) w = some w' ∧
      ∀ c, first dist q ≤ c → c < first dist (q + 1) → used C (globalN dist) c = true →
        w' (cnode dist C c - cnode dist C (first dist q)) = w (cnode dist C c - cnode dist C (first dist q)) + total c l
  | [], w, _ => ⟨w, rfl, fun c _ _ _ => by rw [total_nil, Int.add_zero]⟩
  | x :: l, w, h => by
    obtain ⟨h1, h2, h3⟩ := h x List.mem_cons_self
    have hg := K.lcs_get hS hq h1 h2 h3
    obtain ⟨w', h4, h5⟩ := Clustered.addReceived hq l
      (upd w (cnode dist C x.1 - cnode dist C (first dist q)) (w (cnode dist C x.1 - cnode dist C (first dist q)) + x.2))
      fun y hy => h y (List.mem_cons_of_mem _ hy)
    refine ⟨w', ?_, fun c hc1 hc2 hc3 => ?_⟩
    · rw [List.foldlM_cons]
      have : addReceived? (g q) (lcs dist C q) (cnum dist C q) w x =
          some (upd w (cnode dist C x.1 - cnode dist C (first dist q)) (w (cnode dist C x.1 - cnode dist C (first dist q)) + x.2)) := by
        unfold addReceived?
        rw [K.lcnode hS hq h1 h2 h3, Option.bind_some, if_pos hg.2.2]
      rw [this]
      exact h4
    · rw [h5 c hc1 hc2 hc3, total_cons]
      by_cases hx : x.1 = c
      · rw [← hx, upd_same, if_pos rfl, Int.add_assoc]
      · rw [if_neg hx, upd_ne _ _, Int.zero_add]
        intro he
        refine hx (num_inj h3 hc3 ?_)
        have hg2 := K.lcs_get hS hq hc1 hc2 hc3
        have e1 := Nat.sub_add_cancel hg.2.1
        have e2 := Nat.sub_add_cancel hg2.2.1
        rw [he] at e2
        exact e1.symm.trans e2

/-! ## The graph -/

omit K hS in
theorem cluster_of {q lcu : Nat} (hq : q < procs dist) (hl : lcu < localN (cdistOf dist C) q) : ∃ c, first dist q ≤ c ∧
    c < first dist (q + 1) ∧ used C (globalN dist) c = true ∧ cnode dist C c = first (cdistOf dist C) q + lcu := by
  have h1 := cdist_first (dist := dist) (C := C) (q := q) (by omega)
  have h2 := cdist_first (dist := dist) (C := C) (q := q + 1) (by omega)
  have hlt : first (cdistOf dist C) q + lcu < cnode dist C (first dist (q + 1)) := by
    rw [← h2]; unfold localN at hl; omega
  obtain ⟨c, h3, h4, h5⟩ := num_surj _ hlt
  have h5 : cnode dist C c = first (cdistOf dist C) q + lcu := h5
  have h6 := (cnode_owned (q := q) h4).2 ⟨by rw [h5, h1]; exact Nat.le_add_right _ _, by rw [h5]; exact hlt⟩
  exact ⟨c, h6.1, h6.2, h4, h5⟩

/-- What process `q` builds. -/
theorem Clustered.localCoarse {Wt : Nat → Int} (hW : HasWeights dist inp Wt) {q : Nat} (hq : q < procs dist) : ∃ G I,
    localCoarse? S (procs dist) g lab q = some G ∧ Valid (cdistOf dist C) q I ∧ Represents (cdistOf dist C) q I G ∧
    G.nodeWeights.length = G.totalN ∧
    (∀ u, u < localN (cdistOf dist C) q → I.nodeWeight u = blockWeight dist Wt (fun a => cnode dist C (C a)) (first (cdistOf dist C) q + u)) ∧
    (∀ u, u < localN (cdistOf dist C) q → ((I.neighbours u).map (·.1)).Nodup) ∧
    (∀ u y w, u < localN (cdistOf dist C) q → ((y, w) ∈ I.neighbours u ↔ y ≠ first (cdistOf dist C) q + u ∧
      between dist inp (fun a => cnode dist C (C a)) (first (cdistOf dist C) q + u) y ≠ [] ∧
      w = ((between dist inp (fun a => cnode dist C (C a)) (first (cdistOf dist C) q + u) y).map (·.2.2)).sum)) ∧
    (G.nodes = I.xadj ∧ G.edges.length = I.adjncy.length ∧ G.edgeWeights = I.adjwgt ∧ I.vwgt.length = localN (cdistOf dist C) q ∧
      I.adjwgt.length = I.adjncy.length) := by
  have W := K.world
  have hln := K.cdist_local hq
  obtain ⟨m, t, h1, hm, h2, h3, ht⟩ := K.ghosts hS hq
  have hcol := fun lcu (hl : lcu < localN (cdistOf dist C) q) => K.collect hS hq hl hm ht
  have hch : ∃ nbr : Nat → List (Nat × Int), ∀ lcu, lcu < localN (cdistOf dist C) q →
    collect? (S q) (g q) (lab q) (lcs dist C q) (cdistOf dist C) (gcnOf dist g C q) (inE S dist inp C q) t.toGhost lcu =
        some (((members dist C q lcu).map (inp q).nodeWeight).sum, rekey (lid dist C t.toGhost q) (nbr lcu)) ∧ ((nbr lcu).map (·.1)).Nodup ∧
      (∀ y, y ∈ nbr lcu → y.1 < globalN (cdistOf dist C) ∧ (owned dist C q y.1 = true ∨ y.1 ∈ ghostTargets S dist inp C q)) ∧
      ∀ y w, (y, w) ∈ nbr lcu ↔ y ≠ first (cdistOf dist C) q + lcu ∧
        between dist inp (fun a => cnode dist C (C a)) (first (cdistOf dist C) q + lcu) y ≠ [] ∧
        w = ((between dist inp (fun a => cnode dist C (C a)) (first (cdistOf dist C) q + lcu) y).map (·.2.2)).sum := by
    refine ⟨fun lcu => if h : lcu < localN (cdistOf dist C) q then (hcol lcu h).choose else [], fun lcu h => ?_⟩
    dsimp only
    rw [dif_pos h]
    exact (hcol lcu h).choose_spec
  clear hcol
  obtain ⟨nbr, hnbr⟩ := hch
  obtain ⟨weights, h4, h5⟩ := K.addReceived hS hq (got S dist inp g C q)
    (fun i => (((List.range (cnum dist C q)).map fun lcu =>
      (((members dist C q lcu).map (inp q).nodeWeight).sum, rekey (lid dist C t.toGhost q) (nbr lcu))).getD i (0, [])).1)
    fun x hx => K.got_used hS hq hx
  have hlist : (List.range (cnum dist C q)).mapM (collect? (S q) (g q) (lab q) (lcs dist C q) (cdistOf dist C) (gcnOf dist g C q)
      (inE S dist inp C q) t.toGhost) = some ((List.range (cnum dist C q)).map fun lcu =>
        (((members dist C q lcu).map (inp q).nodeWeight).sum, rekey (lid dist C t.toGhost q) (nbr lcu))) :=
    mapM_some fun lcu hl => (hnbr lcu (by rw [hln]; exact List.mem_range.1 hl)).1
  have hwt : ∀ u, u < localN (cdistOf dist C) q → weights u = blockWeight dist Wt (fun a => cnode dist C (C a)) (first (cdistOf dist C) q + u) := by
    intro u hu
    obtain ⟨c, hc1, hc2, hc3, hc4⟩ := cluster_of hq hu
    have hsub : cnode dist C c - cnode dist C (first dist q) = u := by
      rw [hc4, cdist_first (by omega), Nat.add_sub_cancel_left]
    have h6 := h5 c hc1 hc2 hc3
    rw [hsub] at h6
    have hw := K.weight hS hW hq hc1 hc2 hc3
    rw [hc4, Nat.add_sub_cancel_left] at hw
    rw [h6, ← hw, List.getD_eq_getElem?_getD, List.getElem?_map, List.getElem?_range (by omega)]
    rfl
  let vw := (List.range (cnum dist C q)).map weights
  let I := packed (cnum dist C q) nbr vw
  let G : DGraph := {
    rank := q
    dist := cdistOf dist C
    nodes := I.xadj
    edges := I.adjncy.map (lid dist C t.toGhost q)
    nodeWeights := vw ++ List.replicate m.table.length 0
    edgeWeights := I.adjwgt
    ghostOwner := (List.range m.table.length).map t.owner
    ghostToGlobal := (List.range m.table.length).map t.toGlobal
    globalToGhost := t.toGhost }
  have hflat : ((List.range (cnum dist C q)).map fun lcu =>
      (((members dist C q lcu).map (inp q).nodeWeight).sum, rekey (lid dist C t.toGhost q) (nbr lcu))).flatMap (·.2) =
      rekey (lid dist C t.toGhost q) ((List.range (cnum dist C q)).flatMap nbr) := by
    rw [List.flatMap_map]
    unfold rekey
    rw [List.map_flatMap]
  have hG : localCoarse? S (procs dist) g lab q = some G := by
    unfold localCoarse?
    rw [K.coarseDist hS, Option.bind_some, K.mapping hS hq, Option.bind_some, K.coarseNodes hS hq, Option.bind_some, K.recvNodes hS hq,
      Option.bind_some, K.inEdges hS hq, Option.bind_some]
    unfold coarseGraph?
    rw [K.coarseN_eq hq, h1, Option.bind_some, h3, Option.bind_some, hlist, Option.bind_some, h4, Option.map_some, hflat, h2,
      (W.represents q hq).rank_eq, List.map_map]
    congr 1
    show DGraph.mk _ _ _ _ _ _ _ _ _ = DGraph.mk _ _ _ _ _ _ _ _ _
    congr 1
    · show edgeDistribution _ = edgeDistribution _
      congr 1
      refine List.map_congr_left fun u _ => ?_
      show (rekey _ (nbr u)).length = (nbr u).length
      unfold rekey
      rw [List.length_map]
    · show (rekey _ _).map (·.1) = (((List.range (cnum dist C q)).flatMap nbr).map (·.1)).map _
      unfold rekey
      rw [List.map_map, List.map_map]
      rfl
    · show (rekey _ _).map (·.2) = ((List.range (cnum dist C q)).flatMap nbr).map (·.2)
      unfold rekey
      rw [List.map_map]
      rfl
  have V0 := K.cvalid hq
  have hmem : ∀ v, v ∈ I.adjncy ↔ ∃ u, u < localN (cdistOf dist C) q ∧ v ∈ (nbr u).map (·.1) := by
    intro v
    show v ∈ ((List.range (cnum dist C q)).flatMap nbr).map (·.1) ↔ _
    rw [List.map_flatMap, List.mem_flatMap, hln]
    constructor
    · rintro ⟨u, hu, h⟩; exact ⟨u, List.mem_range.1 hu, h⟩
    · rintro ⟨u, hu, h⟩; exact ⟨u, List.mem_range.2 hu, h⟩
  have hknown : ∀ v, v ∈ I.adjncy → v < globalN (cdistOf dist C) ∧ (owned dist C q v = true ∨ v ∈ ghostTargets S dist inp C q) := by
    intro v hv
    obtain ⟨u, hu, h⟩ := (hmem v).1 hv
    obtain ⟨y, hy, rfl⟩ := List.mem_map.1 h
    exact (hnbr u hu).2.2.1 y hy
  have hvl : vw.length = localN (cdistOf dist C) q := by
    show ((List.range (cnum dist C q)).map weights).length = _
    rw [List.length_map, List.length_range, hln]
  have hV : Valid (cdistOf dist C) q I := by
    refine ⟨V0.exists_rank, V0.zero, V0.sorted, V0.bound, ?_, ?_, ?_, ?_, ?_, .inr ?_, .inr hvl⟩
    · rw [hln]; exact packed_length
    · exact packed_get (Nat.zero_le _)
    · intro u hu
      rw [hln] at hu
      show (packed _ _ _).xadj.getD u 0 ≤ (packed _ _ _).xadj.getD (u + 1) 0
      rw [packed_get (by omega), packed_get (by omega), List.range_succ, List.flatMap_append, List.length_append]
      omega
    · rw [hln]
      show (packed _ _ _).xadj.getD _ 0 = (((List.range (cnum dist C q)).flatMap nbr).map (·.1)).length
      rw [packed_get (Nat.le_refl _), List.length_map]
    · intro v hv
      exact (hknown v hv).1
    · show (((List.range (cnum dist C q)).flatMap nbr).map (·.2)).length = (((List.range (cnum dist C q)).flatMap nbr).map (·.1)).length
      rw [List.length_map, List.length_map]
  have hallkeys : ∀ lcu v, lcu < localN (cdistOf dist C) q → v ≠ first (cdistOf dist C) q + lcu →
      v ∈ (allOf S dist inp C q lcu).map (·.1) → v ∈ I.adjncy := by
    intro lcu v hl hne hv
    have := (K.all_keys hS hq hl hne).1 hv
    exact (hmem v).2 ⟨lcu, hl, List.mem_map.2 ⟨_, ((hnbr lcu hl).2.2.2 v _).2 ⟨hne, this, rfl⟩, rfl⟩⟩
  have hforeign : ∀ v, v ∈ foreign (cdistOf dist C) q I ↔ v ∈ ghostTargets S dist inp C q := by
    intro v
    unfold foreign
    rw [List.mem_dedup, List.mem_filter]
    constructor
    · rintro ⟨hv, h⟩
      refine (hknown v hv).2.resolve_left fun ho => ?_
      have h := of_decide_eq_true h
      have := owned_iff.1 ho
      omega
    · intro hv
      obtain ⟨ho, hsrc⟩ := (K.ghostTargets_mem hS).1 hv
      have ho' : ¬ owned dist C q v = true := by rw [ho]; exact Bool.false_ne_true
      rw [owned_iff] at ho'
      refine ⟨?_, decide_eq_true (by omega)⟩
      rcases hsrc with ⟨u, hu, hou, hk⟩ | ⟨e, he, rfl⟩
      · have hx := owned_iff.1 hou
        refine hallkeys (cnode dist C (C (first dist q + u)) - first (cdistOf dist C) q) v (by unfold localN; omega) (by omega) ?_
        unfold allOf
        rw [List.map_append, List.map_flatMap]
        refine List.mem_append_left _ (List.mem_flatMap.2 ⟨u, ?_, hk⟩)
        unfold members
        exact List.mem_filter.2 ⟨List.mem_range.2 hu, decide_eq_true (by omega)⟩
      · have h6 := (K.in_mem hS hq he).1
        refine hallkeys e.1 e.2.1 h6 (by unfold localN at h6; omega) ?_
        unfold allOf
        rw [List.map_append]
        exact List.mem_append_right _ (List.mem_map.2 ⟨e.2, List.mem_map.2 ⟨e, List.mem_filter.2 ⟨he, decide_eq_true rfl⟩, rfl⟩, rfl⟩)
  have hflen : (foreign (cdistOf dist C) q I).length = m.table.length := by
    have hp : (foreign (cdistOf dist C) q I).Perm (m.table.map Prod.fst) :=
      (List.perm_ext_iff_of_nodup (List.nodup_dedup _) hm.keys).2 fun v => (hforeign v).trans (hm.mem v).symm
    rw [hp.length_eq, List.length_map]
  have hsnd : ∀ v l, (v, l) ∈ m.table → cnum dist C q ≤ l ∧ l < cnum dist C q + m.table.length := by
    intro v l h
    have h' : l ∈ m.table.map Prod.snd := List.mem_map_of_mem (f := Prod.snd) h
    rw [hm.values, List.mem_reverse, List.mem_range'_1] at h'
    exact h'
  let nw : List Int := if I.vwgt = [] then [] else I.vwgt ++ List.replicate (localN (cdistOf dist C) q + (foreign (cdistOf dist C) q I).length) 0
  have hB : Built (cdistOf dist C) q I m.table { G with nodeWeights := nw } := by
    refine ⟨rfl, rfl, rfl, rfl, rfl, ?_, ?_, hm.keys, ?_, ?_, ?_, ?_, ?_, ht.lookup⟩
    · exact List.length_map ..
    · intro e v hev
      refine ⟨lid dist C t.toGhost q v, ?_, ?_⟩
      · show (I.adjncy.map _)[e]? = _
        rw [List.getElem?_map, hev]
        rfl
      · have hk := hknown v (List.mem_of_getElem? hev)
        by_cases ho : owned dist C q v = true
        · rw [if_pos (owned_iff.1 ho)]
          unfold lid
          rw [if_pos ho]
        · rw [if_neg fun h => ho (owned_iff.2 h)]
          obtain ⟨⟨v', j⟩, hj, hv'⟩ := List.mem_map.1 ((hm.mem v).2 (hk.2.resolve_left ho))
          have hv' : v' = v := hv'
          subst hv'
          unfold lid
          rw [if_neg ho, (ht.lookup v' j).2 hj]
          exact hj
    · rw [hm.values, hflen, hln]
      exact List.reverse_perm _
    · intro v; rw [hm.mem v, hforeign v]
    · rw [hflen]
      show _ ≤ ((List.range m.table.length).map t.owner).length
      rw [List.length_map, List.length_range]
    · rw [hflen]
      show ((List.range m.table.length).map t.toGlobal).length = _
      rw [List.length_map, List.length_range]
    · intro v l h
      have hl := hsnd v l h
      rw [hln]
      have ha := ht.arrays v l h
      constructor
      · show ((List.range m.table.length).map t.toGlobal)[_]? = _
        rw [List.getElem?_map, List.getElem?_range (by omega), Option.map_some, ha.1]
      · show ((List.range m.table.length).map t.owner)[_]? = _
        rw [List.getElem?_map, List.getElem?_range (by omega), Option.map_some, ha.2]
  have hR0 := hB.represents hV
  have hGtot : G.totalN = localN (cdistOf dist C) q + m.table.length := by
    rw [← hflen]; exact hR0.total
  have hGl : (vw ++ List.replicate m.table.length (0 : Int)).length = G.totalN := by
    rw [List.length_append, List.length_replicate, hvl, hGtot]
  have hempty : vw = [] → m.table.length = 0 := by
    intro h
    rw [h, List.length_nil] at hvl
    rw [← hflen, List.length_eq_zero_iff, List.eq_nil_iff_forall_not_mem]
    intro v hv
    unfold foreign at hv
    rw [List.mem_dedup, List.mem_filter] at hv
    obtain ⟨u, hu, _⟩ := (hmem v).1 hv.1
    omega
  have hnw : ∀ u, u < localN (cdistOf dist C) q → vw[u]? = some (I.nodeWeight u) := by
    intro u hu
    have hne : I.vwgt ≠ [] := by
      show vw ≠ []
      intro h
      rw [h, List.length_nil] at hvl
      omega
    unfold Input.nodeWeight
    rw [if_neg hne]
    show vw[u]? = some (vw.getD u 0)
    rw [List.getD_eq_getElem?_getD, List.getElem?_eq_getElem (by omega)]
    rfl
  have hR : Represents (cdistOf dist C) q I G := by
    have := hR0.with_weights (j := I) (w := vw ++ List.replicate m.table.length (0 : Int)) rfl (fun _ _ => rfl) ?_ ?_
    · exact this
    · show if vw = [] then _ else _
      split
      · next h => rw [h, hempty h]; rfl
      · rw [hGl]; exact Nat.le_refl _
    · intro u hu
      rw [if_neg, List.getElem?_append_left (by omega), hnw u hu]
      intro h
      rw [List.append_eq_nil_iff] at h
      rw [h.1, List.length_nil] at hvl
      omega
  refine ⟨G, I, hG, hV, hR, hGl, ?_, ?_, ?_, rfl, List.length_map .., rfl, hvl, by
    show (((List.range (cnum dist C q)).flatMap nbr).map (·.2)).length = (((List.range (cnum dist C q)).flatMap nbr).map (·.1)).length
    rw [List.length_map, List.length_map]⟩
  · intro u hu
    have h6 := hnw u hu
    show I.nodeWeight u = _
    rw [← hwt u hu]
    have h7 : vw[u]? = some (weights u) := by
      show ((List.range (cnum dist C q)).map weights)[u]? = _
      rw [List.getElem?_map, List.getElem?_range (by omega)]
      rfl
    rw [h6] at h7
    exact Option.some.inj h7
  · intro u hu
    have h8 : I.neighbours u = nbr u := packed_neighbours (by omega)
    rw [h8]
    exact (hnbr u hu).2.1
  · intro u y w hu
    have h8 : I.neighbours u = nbr u := packed_neighbours (by omega)
    rw [h8]
    exact (hnbr u hu).2.2.2 y w

end Verif.Dist
