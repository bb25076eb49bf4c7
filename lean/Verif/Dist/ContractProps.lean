import Mathlib.Data.List.Sort
import Verif.Dist.ContractQuotient

/-!
# C73: the contraction of a clustering of a distributed graph

Whatever the orders in which threads and messages proceed, the contraction builds the quotient graph: one coarse node for each
cluster, with the weight of its nodes, and one edge between two coarse nodes that have an edge between them, with the weight of all
these edges.  The graph is distributed over the processes like any other graph, each process knows the weights of its ghost nodes,
and a partition of the coarse graph becomes a partition of the fine graph with the same blocks, weights and cut.
-/

namespace Verif.Dist
open Verif.Math

variable {C : Nat → Nat} {dist : List Nat} {inp : Nat → Input} {g : Nat → DGraph} {lab : Nat → List Nat} {S : Nat → Orders}

theorem Clustered.numbers (K : Clustered dist inp g lab C) : Numbers dist C (cdistOf dist C) (cnode dist C) := by
  have W := K.world
  refine ⟨cdist_procs, fun a ha => K.cnode_lt ha, fun a b ha hb h => num_inj (used_iff.2 ⟨a, ha, rfl⟩) (used_iff.2 ⟨b, hb, rfl⟩) h, ?_, ?_⟩
  · intro x hx
    rw [cdist_global] at hx
    obtain ⟨c, _, h1, h2⟩ := num_surj _ hx
    obtain ⟨a, ha, rfl⟩ := used_iff.1 h1
    exact ⟨a, ha, h2⟩
  · intro a q ha hq
    rw [(W.valid q hq).owns_iff' hq, (K.cvalid hq).owns_iff' (by rw [cdist_procs]; exact hq), cdist_first (by omega), cdist_first (by omega)]
    exact cnode_owned (used_iff.2 ⟨a, ha, rfl⟩)

/-- What the processes build, before ghost nodes have weights. -/
theorem Clustered.graphs (K : Clustered dist inp g lab C) (hS : ∀ p, p < procs dist → (S p).Ok) {Wt : Nat → Int} (hW : HasWeights dist inp Wt) :
    ∃ (G : Nat → DGraph) (I : Nat → Input), (∀ q, q < procs dist → localCoarse? S (procs dist) g lab q = some (G q)) ∧
      World (cdistOf dist C) I G ∧ (∀ q, q < procs dist → (G q).nodeWeights.length = (G q).totalN) ∧
      Quotient dist inp Wt (fun a => cnode dist C (C a)) (cdistOf dist C) I ∧
      ∀ q, q < procs dist → (G q).nodes = (I q).xadj ∧ (G q).edges.length = (I q).adjncy.length ∧ (G q).edgeWeights = (I q).adjwgt ∧
        (I q).vwgt.length = localN (cdistOf dist C) q ∧ (I q).adjwgt.length = (I q).adjncy.length := by
  have h : ∀ q, ∃ (G : DGraph) (I : Input), q < procs dist →
      localCoarse? S (procs dist) g lab q = some G ∧ Valid (cdistOf dist C) q I ∧ Represents (cdistOf dist C) q I G ∧
      G.nodeWeights.length = G.totalN ∧
      (∀ u, u < localN (cdistOf dist C) q → I.nodeWeight u = blockWeight dist Wt (fun a => cnode dist C (C a)) (first (cdistOf dist C) q + u)) ∧
      (∀ u, u < localN (cdistOf dist C) q → ((I.neighbours u).map (·.1)).Nodup) ∧
      (∀ u y w, u < localN (cdistOf dist C) q → ((y, w) ∈ I.neighbours u ↔ y ≠ first (cdistOf dist C) q + u ∧
        between dist inp (fun a => cnode dist C (C a)) (first (cdistOf dist C) q + u) y ≠ [] ∧
        w = ((between dist inp (fun a => cnode dist C (C a)) (first (cdistOf dist C) q + u) y).map (·.2.2)).sum)) ∧
      (G.nodes = I.xadj ∧ G.edges.length = I.adjncy.length ∧ G.edgeWeights = I.adjwgt ∧ I.vwgt.length = localN (cdistOf dist C) q ∧
        I.adjwgt.length = I.adjncy.length) := by
    intro q
    by_cases hq : q < procs dist
    · obtain ⟨G, I, h⟩ := K.localCoarse hS hW hq
      exact ⟨G, I, fun _ => h⟩
    · exact ⟨g 0, inp 0, fun h => absurd h hq⟩
  choose G I h using h
  have hp := cdist_procs (dist := dist) (C := C)
  refine ⟨G, I, fun q hq => (h q hq).1, ⟨by rw [hp]; exact K.world.some_process, fun q hq => (h q (hp ▸ hq)).2.1, fun q hq => (h q (hp ▸ hq)).2.2.1⟩,
    fun q hq => (h q hq).2.2.2.1, ⟨fun q u hq hu => (h q (hp ▸ hq)).2.2.2.2.1 u hu, fun q u hq hu => (h q (hp ▸ hq)).2.2.2.2.2.1 u hu,
    fun q u y w hq hu => (h q (hp ▸ hq)).2.2.2.2.2.2.1 u y w hu⟩, fun q hq => (h q hq).2.2.2.2.2.2.2⟩

/-- The projection. -/
theorem Clustered.project (K : Clustered dist inp g lab C) (hS : ∀ p, p < procs dist → (S p).Ok) {cinp : Nat → Input} {cg : Nat → DGraph}
    (W : World (cdistOf dist C) cinp cg) (cpart : Nat → List Nat) (B : Nat → Nat)
    (hB : ∀ q u, q < procs dist → u < localN (cdistOf dist C) q → (cpart q)[u]? = some (B (first (cdistOf dist C) q + u)))
    {me : Nat} (hme : me < procs dist) : ∃ part, project? S (procs dist) g lab cg cpart me = some part ∧ part.length = (g me).totalN ∧
      ∀ l v, (g me).localToGlobal? l = some v → part[l]? = some (B (cnode dist C (C v))) := by
  have W0 := K.world
  have hp := cdist_procs (dist := dist) (C := C)
  have hcme : me < procs (cdistOf dist C) := by rw [hp]; exact hme
  have ht : reply? (procs dist) (blockAnswers? S (procs dist) g lab cg cpart) (sentNodeCounts? S (procs dist) g lab) me =
      some ((List.range (procs dist)).flatMap fun q => ((sent S dist inp g C me).filter fun x => decide (ow dist x.1 = q)).map fun x =>
        (first (cdistOf dist C) q + (cnode dist C x.1 - cnode dist C (first dist q)),
          B (first (cdistOf dist C) q + (cnode dist C x.1 - cnode dist C (first dist q))))) := by
    refine reply_ok (o := fun _ x => ow dist x.1) (B := sent S dist inp g C)
      (r := fun q x => (first (cdistOf dist C) q + (cnode dist C x.1 - cnode dist C (first dist q)),
          B (first (cdistOf dist C) q + (cnode dist C x.1 - cnode dist C (first dist q))))) ?_ ?_ ?_ ?_ hme
    · intro q hq
      unfold blockAnswers?
      rw [K.mapping hS hq, Option.bind_some, K.recvNodes hS hq, Option.bind_some]
      refine mapM_some fun x hx => ?_
      obtain ⟨h1, h2, h3⟩ := K.got_used hS hq hx
      have hlt := (K.lcs_get hS hq h1 h2 h3).2.2
      rw [← K.cdist_local hq] at hlt
      rw [K.lcnode hS hq h1 h2 h3, Option.bind_some, hB q _ hq hlt, Option.bind_some, (W.represents q (by rw [hp]; exact hq)).own _ hlt]
      rfl
    · intro q hq; exact K.sentCounts hS hq
    · intro q hq x hx; exact (K.world.ow_bounds (K.sent_lt hS hq hx)).1
    · exact K.sent_small hS
  unfold project?
  rw [K.coarseNodes hS hme, Option.bind_some, ht, Option.bind_some]
  have hpart : ∀ l, l ∈ List.range (g me).totalN → ((gcnOf dist g C me)[l]?.bind fun x => ((cg me).isOwnedGlobal? x).bind fun owned =>
      if owned = true then ((cg me).globalToLocal? x).bind fun i => (cpart me)[i]? else
        ((List.range (procs dist)).flatMap fun q => ((sent S dist inp g C me).filter fun x => decide (ow dist x.1 = q)).map fun x =>
        (first (cdistOf dist C) q + (cnode dist C x.1 - cnode dist C (first dist q)),
          B (first (cdistOf dist C) q + (cnode dist C x.1 - cnode dist C (first dist q))))).lookup x) =
      some (B (cnode dist C (C (glob g me l)))) := by
    intro l hl
    have hl := List.mem_range.1 hl
    have hu := K.label_used hme hl
    rw [gcn_get hl, Option.bind_some, W.isOwned hcme, Option.bind_some]
    by_cases ho : first (cdistOf dist C) me ≤ cnode dist C (C (glob g me l)) ∧ cnode dist C (C (glob g me l)) < first (cdistOf dist C) (me + 1)
    · rw [if_pos (decide_eq_true ho)]
      have hi : cnode dist C (C (glob g me l)) - first (cdistOf dist C) me < localN (cdistOf dist C) me := by unfold localN; omega
      have R := W.represents me hcme
      have hown := R.own _ hi
      rw [show first (cdistOf dist C) me + (cnode dist C (C (glob g me l)) - first (cdistOf dist C) me) = cnode dist C (C (glob g me l)) by omega] at hown
      rw [R.inverse _ _ (by rw [R.total]; omega) hown, Option.bind_some, hB me _ hme hi]
      congr 2
      omega
    · rw [if_neg (by simpa using ho)]
      have hno : ¬(first dist me ≤ C (glob g me l) ∧ C (glob g me l) < first dist (me + 1)) := by
        intro h
        refine ho ?_
        rw [cdist_first (by omega), cdist_first (by omega)]
        exact (cnode_owned hu).1 h
      have hval : ∀ z, z ∈ sent S dist inp g C me → ∀ q, ow dist z.1 = q →
          first (cdistOf dist C) q + (cnode dist C z.1 - cnode dist C (first dist q)) = cnode dist C z.1 := by
        intro z hz q hzq
        have hb := W0.ow_bounds (K.sent_lt hS hme hz)
        rw [hzq] at hb
        rw [cdist_first (by omega)]
        exact Nat.add_sub_cancel' (num_mono hb.2.1)
      obtain ⟨x, hx, hxc⟩ := List.mem_map.1 ((K.sent_keys hS hme).2 ⟨⟨l, hl, rfl⟩, hno⟩)
      refine lookup_of_values (F := B) ?_ ?_
      · intro y hy
        obtain ⟨q, _, hy⟩ := List.mem_flatMap.1 hy
        obtain ⟨z, _, rfl⟩ := List.mem_map.1 hy
        rfl
      · rw [List.map_flatMap, List.mem_flatMap]
        refine ⟨ow dist x.1, List.mem_range.2 (W0.ow_bounds (K.sent_lt hS hme hx)).1, ?_⟩
        rw [List.map_map]
        refine List.mem_map.2 ⟨x, List.mem_filter.2 ⟨hx, decide_eq_true rfl⟩, ?_⟩
        show first (cdistOf dist C) (ow dist x.1) + (cnode dist C x.1 - cnode dist C (first dist (ow dist x.1))) = _
        rw [hval x hx _ rfl, ← hxc]
  refine ⟨_, mapM_some hpart, by rw [List.length_map, List.length_range], fun l v hlv => ?_⟩
  have hl := lt_total hlv
  have hg : glob g me l = v := by unfold glob; rw [hlv]; rfl
  rw [List.getElem?_map, List.getElem?_range hl, Option.map_some, hg]

/-- The contraction, with the distribution of the coarse nodes and the arrays of the coarse graph. -/
theorem Clustered.contraction (K : Clustered dist inp g lab C) (hS : ∀ p, p < procs dist → (S p).Ok) (Wt : Nat → Int) (hW : HasWeights dist inp Wt)
    (hsym : Symmetric dist inp) : ∃ cinp, Quotient dist inp Wt (fun a => cnode dist C (C a)) (cdistOf dist C) cinp ∧
      Symmetric (cdistOf dist C) cinp ∧ (Undirected dist inp → Undirected (cdistOf dist C) cinp) ∧
      (∀ q, q < procs dist → (cinp q).vwgt.length = localN (cdistOf dist C) q ∧ (cinp q).adjwgt.length = (cinp q).adjncy.length) ∧
      ∀ (z : Nat × Int) (ex : Nat → Execution) (shuffle : List (Nat × Int) → List (Nat × Int)),
        Executions (cdistOf dist C) (fun _ => 0) (localN (cdistOf dist C)) ex → (∀ l, (shuffle l).Perm l) →
        ∃ cg : Nat → DGraph, (∀ me, me < procs dist → contract? S (procs dist) g lab z ex shuffle me = some (cg me)) ∧
          World (cdistOf dist C) cinp cg ∧ Stored (cdistOf dist C) cinp cg ∧
          (∀ me l v, me < procs dist → (cg me).localToGlobal? l = some v →
            (cg me).nodeWeight? l = some (blockWeight dist Wt (fun a => cnode dist C (C a)) v)) ∧
          (∀ me, me < procs dist → ∃ gcn, coarseNodes? S (procs dist) g lab me = some gcn ∧ gcn.length = (g me).totalN ∧
            ∀ l v, (g me).localToGlobal? l = some v → gcn[l]? = some (cnode dist C (C v))) ∧
          ∀ (cpart : Nat → List Nat) (B : Nat → Nat),
            (∀ q u, q < procs dist → u < localN (cdistOf dist C) q → (cpart q)[u]? = some (B (first (cdistOf dist C) q + u))) →
            ∀ me, me < procs dist → ∃ part, project? S (procs dist) g lab cg cpart me = some part ∧ part.length = (g me).totalN ∧
              ∀ l v, (g me).localToGlobal? l = some v → part[l]? = some (B (cnode dist C (C v))) := by
  obtain ⟨G, I, hG, W, hlen, Q, hst⟩ := K.graphs hS hW
  have hp := cdist_procs (dist := dist) (C := C)
  have hN := K.numbers
  have hs := quotient_symmetric Q W.some_process W.valid K.world.valid hN.range hsym
  refine ⟨I, Q, hs, quotient_undirected Q W.some_process W.valid K.world.valid hN.range, fun q hq => (hst q hq).2.2.2, ?_⟩
  intro z ex shuffle hex hsh
  have hall : (List.range (procs dist)).mapM (localCoarse? S (procs dist) g lab) = some ((List.range (procs dist)).map G) :=
    mapM_some fun q hq => hG q (List.mem_range.1 hq)
  have hget : ∀ c q, q < procs dist → (((List.range (procs dist)).map G)[q]?).getD c = G q := by
    intro c q hq
    rw [List.getElem?_map, List.getElem?_range hq]
    rfl
  have hone : ∀ me, me < procs dist → ∃ arr, contract? S (procs dist) g lab z ex shuffle me =
      some { G me with nodeWeights := (List.range (G me).nodeWeights.length).map arr } ∧
      ∀ l v, (G me).localToGlobal? l = some v → arr l = blockWeight dist Wt (fun a => cnode dist C (C a)) v := by
    intro me hme
    have W' : World (cdistOf dist C) I fun p => (((List.range (procs dist)).map G)[p]?).getD (G me) :=
      ⟨W.some_process, W.valid, fun p hp' => by rw [hget _ _ (hp ▸ hp')]; exact W.represents p hp'⟩
    obtain ⟨arr, h1, h2⟩ := C65_ghost_synchronization W' hs z ex hex
      (fun p u => (((((List.range (procs dist)).map G)[p]?).getD (G me)).nodeWeight? u).getD 0) shuffle hsh me (by rw [hp]; exact hme)
      (G me).nodeWeights.length (by rw [hget _ _ hme, hlen me hme])
    refine ⟨arr, ?_, fun l v hlv => ?_⟩
    · unfold contract?
      rw [hall, Option.bind_some, List.getElem?_map, List.getElem?_range hme, Option.map_some, Option.bind_some]
      rw [hp] at h1
      rw [h1]
      rfl
    · have V := W.valid me (by rw [hp]; exact hme)
      have hv : v < globalN (cdistOf dist C) := by
        rcases (W.node (by rw [hp]; exact hme) hlv).2 with ⟨_, _, _, h⟩ | ⟨_, _, _, q, _, h, _⟩
        · have := (V.owns_iff' h.lt).1 h
          have hm := V.mono (show me + 1 ≤ procs (cdistOf dist C) by rw [hp]; omega) (show procs (cdistOf dist C) < (cdistOf dist C).length by
            have := V.exists_rank; unfold procs; omega)
          unfold globalN; omega
        · have := (V.owns_iff' h.lt).1 h
          have hm := V.mono (show q + 1 ≤ procs (cdistOf dist C) from h.lt) (show procs (cdistOf dist C) < (cdistOf dist C).length by
            have := V.exists_rank; unfold procs; omega)
          unfold globalN; omega
      have ho := V.owner hv
      have hb := (V.owns_iff' ho.lt).1 ho
      have hq := ho.lt
      generalize findInDistribution v (cdistOf dist C) = q at ho hb hq
      have h3 := h2 l v q (by rw [hget _ _ hme]; exact hlv) ho
      have hu : v - first (cdistOf dist C) q < localN (cdistOf dist C) q := by unfold localN; omega
      rw [h3, hget _ _ (hp ▸ hq), (W.represents q hq).node_weight _ hu, Option.getD_some, Q.weights q _ hq hu]
      congr 1
      omega
  have hch : ∃ arr : Nat → Nat → Int, ∀ me, me < procs dist → contract? S (procs dist) g lab z ex shuffle me =
      some { G me with nodeWeights := (List.range (G me).nodeWeights.length).map (arr me) } ∧
      ∀ l v, (G me).localToGlobal? l = some v → arr me l = blockWeight dist Wt (fun a => cnode dist C (C a)) v := by
    have h : ∀ me, ∃ arr : Nat → Int, me < procs dist → contract? S (procs dist) g lab z ex shuffle me =
        some { G me with nodeWeights := (List.range (G me).nodeWeights.length).map arr } ∧
        ∀ l v, (G me).localToGlobal? l = some v → arr l = blockWeight dist Wt (fun a => cnode dist C (C a)) v := by
      intro me
      by_cases hme : me < procs dist
      · obtain ⟨arr, h⟩ := hone me hme; exact ⟨arr, fun _ => h⟩
      · exact ⟨fun _ => 0, fun h => absurd h hme⟩
    choose arr h using h
    exact ⟨arr, h⟩
  obtain ⟨arr, harr⟩ := hch
  have hweight : ∀ me l v, me < procs dist → (G me).localToGlobal? l = some v →
      (if (List.range (G me).nodeWeights.length).map (arr me) = [] then some 1 else ((List.range (G me).nodeWeights.length).map (arr me))[l]?) =
        some (blockWeight dist Wt (fun a => cnode dist C (C a)) v) := by
    intro me l v hme hlv
    have hl := lt_total hlv
    rw [hlen me hme, if_neg, List.getElem?_map, List.getElem?_range hl, Option.map_some, (harr me hme).2 l v hlv]
    intro h
    rw [List.map_eq_nil_iff, List.range_eq_nil] at h
    omega
  have WF : World (cdistOf dist C) I fun me => { G me with nodeWeights := (List.range (G me).nodeWeights.length).map (arr me) } := by
    refine ⟨W.some_process, W.valid, fun me hme => ?_⟩
    have R := W.represents me hme
    refine R.with_weights rfl (fun _ _ => rfl) ?_ fun u hu => ?_
    · have hroom := R.room
      split
      · next h =>
        rw [if_pos h] at hroom
        rw [hroom]; rfl
      · rw [List.length_map, List.length_range, hlen me (hp ▸ hme)]
    · rw [hweight me u _ (hp ▸ hme) (R.own u hu), Q.weights me u hme hu]
  refine ⟨fun me => { G me with nodeWeights := (List.range (G me).nodeWeights.length).map (arr me) }, fun me hme => (harr me hme).1, WF, ?_,
    fun me l v hme hlv => hweight me l v hme hlv, fun me hme => ⟨_, K.coarseNodes hS hme, ?_, ?_⟩, ?_⟩
  · refine ⟨fun q hq => (hst q (hp ▸ hq)).1, fun q hq => (hst q (hp ▸ hq)).2.1, fun q hq => (hst q (hp ▸ hq)).2.2.1, fun q hq => ?_⟩
    have hq' : q < procs dist := hp ▸ hq
    have R := W.represents q hq
    have hvl := (hst q hq').2.2.2.1
    have hle : localN (cdistOf dist C) q ≤ (G q).totalN := by rw [R.total]; omega
    refine ⟨((List.range (G q).nodeWeights.length).map (arr q)).drop (localN (cdistOf dist C) q), ?_, fun h => ?_⟩
    · show (List.range (G q).nodeWeights.length).map (arr q) = _
      conv_lhs => rw [← List.take_append_drop (localN (cdistOf dist C) q) ((List.range (G q).nodeWeights.length).map (arr q))]
      congr 1
      refine List.ext_getElem? fun u => ?_
      by_cases hu : u < localN (cdistOf dist C) q
      · rw [List.getElem?_take_of_lt hu, List.getElem?_map, List.getElem?_range (by rw [hlen q hq']; omega), Option.map_some,
          (harr q hq').2 u _ (R.own u hu), ← Q.weights q u hq hu]
        unfold Input.nodeWeight
        rw [if_neg (by intro h; rw [h, List.length_nil] at hvl; omega), List.getD_eq_getElem?_getD, List.getElem?_eq_getElem (by omega)]
        rfl
      · rw [List.getElem?_eq_none (by rw [List.length_take, List.length_map, List.length_range]; omega), List.getElem?_eq_none (by omega)]
    · have h0 := (W.represents q hq).room
      rw [if_pos h] at h0
      rw [h0]
      exact List.drop_nil
  · unfold gcnOf; rw [List.length_map, List.length_range]
  · intro l v hlv
    have hg : glob g me l = v := by unfold glob; rw [hlv]; rfl
    rw [gcn_get (lt_total hlv), hg]
  · intro cpart B hB me hme
    exact K.project hS WF cpart B hB hme

/-- **C73**, the coarse graph: the clusters get the numbers `0, 1, …`, the process that owns the name of a cluster owns its coarse
node, and the processes build the quotient graph, whatever the threads and processes do.  Every process knows the coarse nodes of its
nodes and ghost nodes, and the weights of all its coarse nodes and coarse ghost nodes.  A partition of the coarse graph, known to the
owners of the coarse nodes, is projected to all nodes and ghost nodes. -/
theorem C73_contraction (K : Clustered dist inp g lab C) (hS : ∀ p, p < procs dist → (S p).Ok) (Wt : Nat → Int) (hW : HasWeights dist inp Wt)
    (hsym : Symmetric dist inp) : ∃ cdist cinp f, Numbers dist C cdist f ∧ Quotient dist inp Wt (fun a => f (C a)) cdist cinp ∧
      Symmetric cdist cinp ∧ (Undirected dist inp → Undirected cdist cinp) ∧
      ∀ (z : Nat × Int) (ex : Nat → Execution) (shuffle : List (Nat × Int) → List (Nat × Int)),
        Executions cdist (fun _ => 0) (localN cdist) ex → (∀ l, (shuffle l).Perm l) →
        ∃ cg : Nat → DGraph, (∀ me, me < procs dist → contract? S (procs dist) g lab z ex shuffle me = some (cg me)) ∧
          World cdist cinp cg ∧
          (∀ me l v, me < procs dist → (cg me).localToGlobal? l = some v →
            (cg me).nodeWeight? l = some (blockWeight dist Wt (fun a => f (C a)) v)) ∧
          (∀ me, me < procs dist → ∃ gcn, coarseNodes? S (procs dist) g lab me = some gcn ∧ gcn.length = (g me).totalN ∧
            ∀ l v, (g me).localToGlobal? l = some v → gcn[l]? = some (f (C v))) ∧
          ∀ (cpart : Nat → List Nat) (B : Nat → Nat),
            (∀ q u, q < procs dist → u < localN cdist q → (cpart q)[u]? = some (B (first cdist q + u))) →
            ∀ me, me < procs dist → ∃ part, project? S (procs dist) g lab cg cpart me = some part ∧ part.length = (g me).totalN ∧
              ∀ l v, (g me).localToGlobal? l = some v → part[l]? = some (B (f (C v))) := by
  obtain ⟨cinp, h1, h2, h3, _, h5⟩ := K.contraction hS Wt hW hsym
  refine ⟨cdistOf dist C, cinp, cnode dist C, K.numbers, h1, h2, h3, fun z ex shuffle hex hsh => ?_⟩
  obtain ⟨cg, a1, a2, _, a4⟩ := h5 z ex shuffle hex hsh
  exact ⟨cg, a1, a2, a4⟩

/-- **C73**, cut and balance: a partition of a quotient graph has the cut and the block weights of the partition of the fine graph that
puts each node into the block of its cluster. -/
theorem C73_projected_partition {Wt cWt : Nat → Int} {cdist : List Nat} {cinp : Nat → Input} {cg : Nat → DGraph} {f : Nat → Nat}
    (W : World dist inp g) (cW : World cdist cinp cg) (hN : Numbers dist C cdist f)
    (hQ : Quotient dist inp Wt (fun a => f (C a)) cdist cinp) (hcW : HasWeights cdist cinp cWt) (B : Nat → Nat) :
    (Undirected dist inp → cut cdist cinp B = cut dist inp fun a => B (f (C a))) ∧
      ∀ b, blockWeight cdist cWt B b = blockWeight dist Wt (fun a => B (f (C a))) b := by
  constructor
  · intro hu
    have h1 := directed_cut (P := B) (quotient_undirected hQ cW.some_process cW.valid W.valid hN.range hu)
    have h2 := directed_cut (P := fun a => B (f (C a))) hu
    have h3 := quotient_directed hQ cW.valid cW.some_process W.valid hN.range B
    omega
  · intro b
    have hx : ∀ x, x < globalN cdist → cWt x = blockWeight dist Wt (fun a => f (C a)) x := by
      intro x hx
      have V := cW.valid 0 cW.some_process
      have ho := V.owner hx
      have hb := (V.owns_iff' ho.lt).1 ho
      have hq := ho.lt
      generalize findInDistribution x cdist = q at ho hb hq
      have hu : x - first cdist q < localN cdist q := by unfold localN; omega
      have h1 := hcW q hq _ hu
      rw [hQ.weights q _ hq hu, show first cdist q + (x - first cdist q) = x by omega] at h1
      exact h1
    unfold blockWeight
    rw [← sum_groups (ks := List.range (globalN cdist)) List.nodup_range (fun a => f (C a)) Wt ((List.range (globalN dist)).filter
      fun a => decide (B (f (C a)) = b)) fun a ha => List.mem_range.2 (hN.range a (List.mem_range.1 (List.mem_filter.1 ha).1))]
    rw [sum_filter_map]
    congr 1
    refine List.map_congr_left fun x hx' => ?_
    rw [hx x (List.mem_range.1 hx'), List.filter_filter]
    by_cases hb : B x = b
    · rw [if_pos (decide_eq_true hb)]
      unfold blockWeight
      congr 2
      refine List.filter_congr fun a _ => ?_
      rw [← Bool.decide_and, decide_eq_decide]
      constructor
      · intro h; exact ⟨h, (congrArg B h).trans hb⟩
      · exact fun h => h.1
    · rw [if_neg (by simpa using hb)]
      have : (List.range (globalN dist)).filter (fun a => decide (f (C a) = x) && decide (B (f (C a)) = b)) = [] := by
        rw [List.filter_eq_nil_iff]
        intro a _ h
        rw [← Bool.decide_and] at h
        have h := of_decide_eq_true h
        exact hb ((congrArg B h.1).symm.trans h.2)
      rw [this]
      rfl

/-! ## A concrete case -/

/-- Orders of one thread; the sorting algorithm is insertion sort. -/
def orders3 : Orders where
  sortNodes := List.insertionSort fun a b => a.1 ≤ b.1
  sortPairs := List.insertionSort fun a b => a.1 < b.1 ∨ a.1 = b.1 ∧ a.2.1 ≤ b.2.1
  sortSources := List.insertionSort fun a b => a.1 ≤ b.1
  blocks := fun m => [(0, m)]
  targets := List.reverse
  table := List.reverse
  bucket := fun _ => List.reverse
  entries := fun _ => List.reverse

theorem orders3_ok : orders3.Ok := by
  refine ⟨fun l => ⟨List.perm_insertionSort _ l, ?_⟩, fun l => ⟨List.perm_insertionSort _ l, ?_⟩, fun l => ⟨List.perm_insertionSort _ l, ?_⟩,
    fun m => ?_, fun l => List.reverse_perm l, fun l => List.reverse_perm l, fun _ l => List.reverse_perm l, fun _ l => List.reverse_perm l⟩
  · have : Std.Total (fun a b : Nat × Int => a.1 ≤ b.1) := ⟨fun a b => Nat.le_total _ _⟩
    have : IsTrans (Nat × Int) (fun a b => a.1 ≤ b.1) := ⟨fun _ _ _ => Nat.le_trans⟩
    exact List.pairwise_insertionSort _ l
  · have : Std.Total (fun a b : GEdge => a.1 < b.1 ∨ a.1 = b.1 ∧ a.2.1 ≤ b.2.1) := ⟨fun a b => by omega⟩
    have : IsTrans GEdge (fun a b => a.1 < b.1 ∨ a.1 = b.1 ∧ a.2.1 ≤ b.2.1) := ⟨fun _ _ _ h1 h2 => by omega⟩
    exact List.pairwise_insertionSort _ l
  · have : Std.Total (fun a b : GEdge => a.1 ≤ b.1) := ⟨fun a b => Nat.le_total _ _⟩
    have : IsTrans GEdge (fun a b => a.1 ≤ b.1) := ⟨fun _ _ _ => Nat.le_trans⟩
    exact List.pairwise_insertionSort _ l
  · show (([(0, m)] : List (Nat × Nat)).flatMap fun b => List.range' b.1 b.2).Perm _
    rw [List.flatMap_singleton, List.range_eq_range']

/-- Three clusters of the five nodes: {0, 1}, {2, 3} and {4}.  The second one has the ID of a node of another process. -/
def C3 : Nat → Nat := fun a => [1, 1, 3, 3, 0].getD a 0
def lab3 : Nat → List Nat := fun p => match p with | 0 => [1, 1, 3, 0, 3] | 1 => [] | _ => [3, 0, 3, 1]

/-- The hypotheses hold for the example of C64 on three processes. -/
example : ∃ g lab, Clustered dist3 inp3 g lab C3 ∧ HasWeights dist3 inp3 (fun a => [5, 6, 7, 8, 9].getD a 0) ∧ Symmetric dist3 inp3 ∧
    Undirected dist3 inp3 ∧ orders3.Ok := by
  obtain ⟨g, W⟩ := world3
  refine ⟨g, fun p => (List.range (g p).totalN).map fun l => C3 (((g p).localToGlobal? l).getD 0), ⟨W, by decide, ?_, ?_, by decide⟩,
    by unfold HasWeights; decide, symmetric3, undirected3, orders3_ok⟩
  · intro p _ l v hl
    show ((List.range (g p).totalN).map _)[l]? = _
    rw [List.getElem?_map, List.getElem?_range (lt_total hl), Option.map_some, hl]
    rfl
  · have h : (List.range (procs dist3)).map (fun p => (g p).totalN) =
        (List.range (procs dist3)).map fun p => localN dist3 p + (foreign dist3 p (inp3 p)).length :=
      List.map_congr_left fun p hp => (W.represents p (List.mem_range.1 hp)).total
    rw [h]
    decide

/-- What the threads do when the weights of ghost nodes of the coarse graph are exchanged. -/
def coarseEx3 : Nat → Execution := fun p => match p with
  | 0 => ⟨2, [(1, 0), (0, 1)], [(0, 1), (1, 0)]⟩
  | 1 => ⟨1, [], []⟩
  | _ => ⟨2, [(1, 0)], [(1, 0)]⟩

/-- The clusters 0 and 1 are the coarse nodes 0 and 1 of process 0, cluster 3 is the coarse node 2 of process 2. -/
example : coarseDist? (fun _ => orders3) 3 g3 lab3 = some [0, 2, 2, 3] := by decide +kernel
example : coarseNodes? (fun _ => orders3) 3 g3 lab3 0 = some [1, 1, 2, 0, 2] := by decide +kernel
example : (contract? (fun _ => orders3) 3 g3 lab3 (0, 0) coarseEx3 List.reverse 0).map (fun c => (c.nodes, c.edges, c.nodeWeights)) =
    some ([0, 2, 4], [2, 1, 0, 2], [9, 11, 15]) := by decide +kernel
example : (contract? (fun _ => orders3) 3 g3 lab3 (0, 0) coarseEx3 List.reverse 2).map (fun c => (c.edgeWeights, c.nodeWeights, c.ghostToGlobal)) =
    some ([4, 2], [15, 11, 9], [1, 0]) := by decide +kernel
example : project? (fun _ => orders3) 3 g3 lab3 (fun p => (localCoarse? (fun _ => orders3) 3 g3 lab3 p).getD (g3 0))
    (fun p => match p with | 0 => [7, 8] | 1 => [] | _ => [9]) 0 = some [8, 8, 9, 7, 9] := by decide +kernel

/-- If a process has a wrong cluster for a ghost node, a cluster without nodes becomes a coarse node. -/
example : coarseDist? (fun _ => orders3) 3 g3 (fun p => match p with | 0 => [1, 1, 3, 0, 3] | 1 => [] | _ => [3, 0, 3, 2]) = some [0, 3, 3, 4] := by
  decide +kernel

end Verif.Dist
