import Verif.Dist.RearrangeGhosts
import Verif.Dist.ContractGraph

/-!
# The rearranged graph of all processes
-/

namespace Verif.Dist
open Verif.Math Verif.Permute

variable {dist : List Nat} {inp : Nat → Input} {g : Nat → DGraph}

theorem getD_range_map {α : Type} {m e : Nat} {f : Nat → α} {d : α} (h : e < m) : ((List.range m).map f).getD e d = f e := by
  rw [List.getD_eq_getElem?_getD, List.getElem?_map, List.getElem?_range h]
  rfl

/-- The rearranged graph of one process. -/
theorem World.rearranged_one (W : World dist inp g) (hst : Stored dist inp g) (hsym : Symmetric dist inp) {perm : Nat → NodePermutations}
    {ρ : Nat → Nat} (hp : Permutations dist perm) (hρ : Renames dist perm ρ) (z : Nat × Nat) {runs : Nat → PermuteRun}
    (hruns : Runs dist runs) {ex : Nat → Execution}
    (hex : Executions dist (fun _ => 0) (localN dist) ex) {shuffle : List (Nat × Nat × Nat) → List (Nat × Nat × Nat)}
    (hsh : ∀ l, (shuffle l).Perm l) {me : Nat} (hme : me < procs dist) :
    ∃ G I, rearranged? (procs dist) z g perm runs ex shuffle me = some G ∧ Valid dist me I ∧ Represents dist me I G ∧
      (G.nodes = I.xadj ∧ G.edges.length = I.adjncy.length ∧ G.edgeWeights = I.adjwgt ∧
        ∃ rest, G.nodeWeights = I.vwgt ++ rest ∧ (I.vwgt = [] → rest = [])) ∧
      (∀ u, u < localN dist me → I.neighbours ((perm me).oldToNew u) = (((inp me).neighbours u).map fun x => (ρ x.1, x.2)).reverse) ∧
      (∀ u, u < localN dist me → I.nodeWeight ((perm me).oldToNew u) = (inp me).nodeWeight u) ∧
      ∀ l v, (g me).localToGlobal? l = some v → ∃ l', G.localToGlobal? l' = some (ρ v) ∧ G.nodeWeight? l' = (g me).nodeWeight? l := by
  have R := W.represents me hme
  have V := W.valid me hme
  obtain ⟨calls, s, h1, h2, h3, h4, h5⟩ := W.relabelled hsym hp hρ z hex hsh hme
  have hrows := permuted_rows V R (hst.nodes me hme) (perm me) (hp me hme) (runs me) (hruns me hme).1 (hruns me hme).2
  obtain ⟨c, hc⟩ : ∃ c, c = buildPermuted true (csr (g me)) (perm me) (runs me).order1 (runs me).order2 (runs me).garbage (runs me).garbageE
    (runs me).garbageW := ⟨_, rfl⟩
  rw [← hc] at hrows
  obtain ⟨n, hn⟩ : ∃ n, n = localN dist me := ⟨_, rfl⟩
  have hgn : (g me).n = n := by rw [hn]; exact R.n_eq
  have hnl : (g me).nodes.length = n + 1 := by rw [hst.nodes me hme, V.xadj_length, hn]
  have hel := hst.edges me hme
  have hew := hst.edge_weights me hme
  obtain ⟨rest, hr1, hr2⟩ := hst.node_weights me hme
  have htot := R.total
  rw [← hn] at hrows h3 h4 h5 htot
  have hpi := hp me hme
  rw [← hn] at hpi
  obtain ⟨Gl, hGl⟩ : ∃ Gl : Nat → Nat, Gl = fun l => if l < n then first dist me + l else ρ (idOf (g me) l) := ⟨_, rfl⟩
  obtain ⟨A, hA⟩ : ∃ A : DGraph, A = { g me with
      nodes := (List.range (g me).nodes.length).map c.nodes
      edges := (List.range (g me).edges.length).map fun e => (c.edges e).1
      nodeWeights := (List.range (g me).nodeWeights.length).map fun u =>
        if (g me).n ≤ u ∧ u < (g me).totalN then (g me).nodeWeights.getD u 0 else c.w u
      edgeWeights := (List.range (g me).edgeWeights.length).map fun e => (c.edges e).2 } := ⟨_, rfl⟩
  have hroom := R.room
  have hnw0 : (inp me).vwgt = [] → (g me).nodeWeights = [] := by
    intro h
    rw [hr1, h, hr2 h]; rfl
  have harr : permuteArrays? (g me) (perm me) (runs me) = some A := by
    unfold permuteArrays?
    dsimp only
    rw [← hc, if_pos, hA]
    by_cases h : (inp me).vwgt = []
    · exact .inl (hnw0 h)
    · rw [if_neg h] at hroom
      exact .inr hroom
  obtain ⟨G, hG⟩ : ∃ G : DGraph, G = { A with ghostToGlobal := (List.range (g me).ghostN).map s.toGlobal, globalToGhost := s.toGhost } :=
    ⟨_, rfl⟩
  have hres : rearranged? (procs dist) z g perm runs ex shuffle me = some G := by
    unfold rearranged?
    rw [harr, Option.bind_some, h1, Option.bind_some, h2, hG]
    rfl
  have eG : G = { G with nodes := (List.range (n + 1)).map c.nodes } := by rw [hG, hA, ← hnl]
  have gnodes : G.nodes = (List.range (n + 1)).map c.nodes := by rw [eG]
  have gedges : G.edges = (List.range (g me).edges.length).map fun e => (c.edges e).1 := by rw [hG, hA]
  have gew : G.edgeWeights = (List.range (g me).edgeWeights.length).map fun e => (c.edges e).2 := by rw [hG, hA]
  have gnw : G.nodeWeights = (List.range (g me).nodeWeights.length).map fun u =>
      if n ≤ u ∧ u < (g me).totalN then (g me).nodeWeights.getD u 0 else c.w u := by rw [hG, hA, ← hgn]
  have grank : G.rank = (g me).rank := by rw [hG, hA]
  have gdist : G.dist = (g me).dist := by rw [hG, hA]
  have gown : G.ghostOwner = (g me).ghostOwner := by rw [hG, hA]
  have gtg : G.ghostToGlobal = (List.range (g me).ghostN).map s.toGlobal := by rw [hG]
  have ggt : G.globalToGhost = s.toGhost := by rw [hG]
  obtain ⟨I, hI⟩ : ∃ I : Input, I = ⟨G.nodes, G.edges.map Gl, if (inp me).vwgt = [] then [] else G.nodeWeights.take n, G.edgeWeights⟩ :=
    ⟨_, rfl⟩
  have ix : I.xadj = G.nodes := by rw [hI]
  have ia : I.adjncy = G.edges.map Gl := by rw [hI]
  have iv : I.vwgt = if (inp me).vwgt = [] then [] else G.nodeWeights.take n := by rw [hI]
  have iw : I.adjwgt = G.edgeWeights := by rw [hI]
  have ghN : (g me).totalN = (g me).ghostN + n := by unfold DGraph.totalN; rw [hgn]
  -- the rows of the new graph
  have hxg : ∀ u, u ≤ n → I.xadj.getD u 0 = c.nodes u := by
    intro u hu
    rw [ix, gnodes]
    exact getD_range_map (by omega)
  have hmono : ∀ u v, u ≤ v → v ≤ n → c.nodes u ≤ c.nodes v := by
    intro u v huv
    induction v with
    | zero => intro _; rw [Nat.le_zero.1 huv]
    | succ v ih =>
      intro hv
      rcases Nat.lt_or_ge u (v + 1) with hlt | hge
      · exact Nat.le_trans (ih (by omega) (by omega)) (hrows.mono v (by omega))
      · rw [show u = v + 1 by omega]
  have hal : I.adjncy.length = (inp me).adjncy.length := by rw [ia, gedges, List.length_map, List.length_map, List.length_range, hel]
  have hag : ∀ e, e < (inp me).adjncy.length → I.adjncy[e]? = some (Gl (c.edges e).1) ∧ G.edges[e]? = some (c.edges e).1 := by
    intro e he
    have : G.edges[e]? = some (c.edges e).1 := by
      rw [gedges, List.getElem?_map, List.getElem?_range (by omega)]
      rfl
    exact ⟨by rw [ia, List.getElem?_map, this]; rfl, this⟩
  have hwe : I.adjwgt = [] ↔ (inp me).adjwgt = [] := by
    rw [iw, gew, hew]
    constructor
    · intro h
      have := congrArg List.length h
      simpa using this
    · intro h; rw [h]; rfl
  have hwt : ∀ e, e < (inp me).adjncy.length → I.weight e = if (inp me).adjwgt = [] then 1 else (c.edges e).2 := by
    intro e he
    unfold Input.weight
    by_cases h : (inp me).adjwgt = []
    · rw [if_pos h, if_pos (hwe.2 h)]
    · rw [if_neg h, if_neg fun h' => h (hwe.1 h'), iw, gew]
      have := V.adjwgt.resolve_left h
      exact getD_range_map (by rw [hew]; omega)
  have hnb : ∀ x, x < n → I.neighbours x = (c.graph.adj x).map fun y => (Gl y.1, if (inp me).adjwgt = [] then 1 else y.2) := by
    intro x hx
    unfold Input.neighbours
    rw [hxg x (by omega), hxg (x + 1) (by omega)]
    show _ = ((List.range' (c.nodes x) (c.nodes (x + 1) - c.nodes x)).map c.edges).map _
    rw [List.map_map]
    refine List.map_congr_left fun e he => ?_
    rw [List.mem_range'_1] at he
    have := hmono (x + 1) n (by omega) (Nat.le_refl _)
    rw [hrows.last] at this
    have hea : e < (inp me).adjncy.length := by omega
    rw [hwt e hea, List.getD_eq_getElem?_getD, (hag e hea).1]
    rfl
  have hold : ∀ u, u < n → (inp me).neighbours u = ((csr (g me)).graph.adj u).map (fun x => (idOf (g me) x.1, if (inp me).adjwgt = [] then 1 else x.2)) ∧
      ∀ x, x ∈ (csr (g me)).graph.adj u → ∃ v, (g me).localToGlobal? x.1 = some v :=
    fun u hu => csr_neighbours V R (hst.nodes me hme) hel hew (by rw [← hn]; exact hu)
  have hGlπ : ∀ l v, (g me).localToGlobal? l = some v → Gl (if l < n then (perm me).oldToNew l else l) = ρ v := by
    intro l v h
    rw [hGl]
    dsimp only
    by_cases hl : l < n
    · rw [if_pos hl, if_pos (hpi l hl).1]
      have := R.own l (by rw [← hn]; exact hl)
      rw [this] at h
      cases h
      rw [hρ me hme l (by rw [← hn]; exact hl)]
    · rw [if_neg hl, if_neg hl, idOf_of h]
  have hnew : ∀ u, u < n → I.neighbours ((perm me).oldToNew u) = (((inp me).neighbours u).map fun x => (ρ x.1, x.2)).reverse := by
    intro u hu
    rw [hnb _ (hpi u hu).1, hrows.adj u hu, (hold u hu).1, List.map_reverse, List.map_map, List.map_map]
    congr 1
    refine List.map_congr_left fun x hx => ?_
    obtain ⟨v, hv⟩ := (hold u hu).2 x hx
    dsimp only [Function.comp]
    rw [hGlπ x.1 v hv, idOf_of hv]
  -- each entry of the new adjacency array is the new number of a neighbour
  have hsrc : ∀ e, e < (inp me).adjncy.length → ∃ l v, (g me).localToGlobal? l = some v ∧ (c.edges e).1 = (if l < n then (perm me).oldToNew l else l) ∧
      v ∈ (inp me).adjncy := by
    intro e he
    rw [← hrows.last] at he
    obtain ⟨x, hx, hx1, hx2⟩ := row_of hrows.zero he
    obtain ⟨u, hu, hux⟩ := surj_of_inj (fun u hu => (hpi u hu).1) (fun u v hu hv h => by
      rw [← (hpi u hu).2, ← (hpi v hv).2, h]) x hx
    have hmem : c.edges e ∈ c.graph.adj x := List.mem_map.2 ⟨e, List.mem_range'_1.2 ⟨hx1, by omega⟩, rfl⟩
    rw [← hux, hrows.adj u hu, List.mem_reverse, List.mem_map] at hmem
    obtain ⟨y, hy, hye⟩ := hmem
    obtain ⟨v, hv⟩ := (hold u hu).2 y hy
    refine ⟨y.1, v, hv, by rw [← hye], ?_⟩
    refine V.neighbour_mem (u := u) (by rw [← hn]; exact hu) (x := (v, if (inp me).adjwgt = [] then 1 else y.2)) ?_
    rw [(hold u hu).1]
    refine List.mem_map.2 ⟨y, hy, ?_⟩
    rw [idOf_of hv]
  have howner : ∀ v, v ∈ (inp me).adjncy → Owns dist (findInDistribution v dist) v := fun v hv => V.owner (V.targets v hv)
  have hVal : Valid dist me I := by
    refine ⟨V.exists_rank, V.zero, V.sorted, V.bound, ?_, ?_, ?_, ?_, ?_, ?_, ?_⟩
    · rw [ix, gnodes, ← hn]; simp
    · rw [hxg 0 (by omega)]; exact hrows.zero
    · intro u hu
      rw [← hn] at hu
      rw [hxg u (by omega), hxg (u + 1) (by omega)]
      exact hrows.mono u hu
    · rw [← hn, hxg n (by omega), hrows.last, hal]
    · intro v hv
      obtain ⟨e, he⟩ := List.getElem?_of_mem hv
      have hle : e < (inp me).adjncy.length := by rw [← hal]; exact (List.getElem?_eq_some_iff.1 he).1
      rw [(hag e hle).1] at he
      obtain ⟨l, w, a1, a2, a3⟩ := hsrc e hle
      have hw : v = ρ w := by
        rw [← Option.some.inj he, a2]
        exact hGlπ l w a1
      have ho := (W.renames_inj hp hρ (howner w a3)).1
      rw [← hw] at ho
      have := (V.owns_iff' ho.lt).1 ho
      have h7 := V.mono (i := findInDistribution w dist + 1) (j := dist.length - 1) (by
        have := ho.lt; unfold procs at this; omega) (by have := V.exists_rank; omega)
      omega
    · rw [iw, gew, hal, hew]
      rcases V.adjwgt with h | h
      · left; rw [h]; rfl
      · right; simp [h]
    · rw [iv]
      by_cases h : (inp me).vwgt = []
      · left; rw [if_pos h]
      · right
        rw [if_neg h, gnw, List.length_take, List.length_map, List.length_range, ← hn, hr1, List.length_append]
        have := V.vwgt.resolve_left h
        omega
  -- ghost nodes
  have hnoown : ∀ l, n ≤ l → l < (g me).totalN → ¬(first dist me ≤ ρ (idOf (g me) l) ∧ ρ (idOf (g me) l) < first dist (me + 1)) ∧
      (g me).owner? l = some (findInDistribution (ρ (idOf (g me) l)) dist) := by
    intro l a1 a2
    obtain ⟨v, q, b1, b2, b3, b4, b5⟩ := R.ghost l (by rw [← hn]; exact a1) a2
    rw [idOf_of b1]
    have ho := (W.renames_inj hp hρ b4).1
    have hbd := (V.owns_iff' ho.lt).1 ho
    have h7 := V.mono (i := q + 1) (j := dist.length - 1) (by
      have := ho.lt; unfold procs at this; omega) (by have := V.exists_rank; omega)
    refine ⟨fun h => b5 (V.owns_unique ho ((V.owns_iff' hme).2 h)), ?_⟩
    rw [b3, V.owns_unique (V.owner (v := ρ v) (by omega)) ho]
  have hghosts : ∀ v, v ∈ foreign dist me I ↔ ∃ l, (n ≤ l ∧ l < (g me).totalN) ∧ v = ρ (idOf (g me) l) := by
    intro v
    unfold foreign
    rw [List.mem_dedup, List.mem_filter, decide_eq_true_iff]
    constructor
    · rintro ⟨hv, hno⟩
      obtain ⟨e, he⟩ := List.getElem?_of_mem hv
      have hle : e < (inp me).adjncy.length := by rw [← hal]; exact (List.getElem?_eq_some_iff.1 he).1
      rw [(hag e hle).1] at he
      obtain ⟨l, w, a1, a2, a3⟩ := hsrc e hle
      have hw : v = ρ w := by
        rw [← Option.some.inj he, a2]
        exact hGlπ l w a1
      refine ⟨l, ⟨?_, lt_total a1⟩, by rw [hw, idOf_of a1]⟩
      by_contra hlt
      have hlt : l < n := by omega
      have := R.own l (by rw [← hn]; exact hlt)
      rw [this] at a1
      cases a1
      rw [hρ me hme l (by rw [← hn]; exact hlt)] at hw
      have := (hpi l hlt).1
      have e2 : localN dist me = first dist (me + 1) - first dist me := rfl
      omega
    · rintro ⟨l, ⟨a1, a2⟩, rfl⟩
      have hno := (hnoown l a1 a2).1
      refine ⟨?_, by omega⟩
      obtain ⟨w, q, b1, b2, _, b4, b5⟩ := R.ghost l (by rw [← hn]; exact a1) a2
      rw [idOf_of b1]
      rw [W.foreign_mem hme] at b2
      obtain ⟨u, y, hu, hy⟩ := V.adjncy_neighbour b2.1
      refine hVal.neighbour_mem (u := (perm me).oldToNew u) (by rw [← hn]; exact (hpi u (by rw [hn]; exact hu)).1) (x := (ρ w, y)) ?_
      rw [hnew u (by rw [hn]; exact hu), List.mem_reverse]
      exact List.mem_map.2 ⟨_, hy, rfl⟩
  let T : List (Nat × Nat) := (List.range' n (g me).ghostN).map fun l => (ρ (idOf (g me) l), l)
  have hTm : ∀ v l, (v, l) ∈ T ↔ (n ≤ l ∧ l < (g me).totalN) ∧ v = ρ (idOf (g me) l) := by
    intro v l
    show (v, l) ∈ (List.range' n (g me).ghostN).map _ ↔ _
    rw [List.mem_map]
    constructor
    · rintro ⟨x, hx, he⟩
      rw [List.mem_range'_1] at hx
      injection he with e1 e2
      subst e2
      exact ⟨by omega, e1.symm⟩
    · rintro ⟨hl, rfl⟩
      exact ⟨l, List.mem_range'_1.2 (by omega), rfl⟩
  have hTk : (T.map Prod.fst).Nodup := by
    show (((List.range' n (g me).ghostN).map _).map Prod.fst).Nodup
    rw [List.map_map]
    refine nodup_map_on List.nodup_range' fun a ha b hb he => ?_
    rw [List.mem_range'_1] at ha hb
    exact h5 a b (by omega) (by omega) (by omega) (by omega) he
  have hTf : ∀ v, v ∈ T.map Prod.fst ↔ v ∈ foreign dist me I := by
    intro v
    rw [hghosts, List.mem_map]
    constructor
    · rintro ⟨⟨v', l⟩, h, rfl⟩
      exact ⟨l, (hTm _ _).1 h⟩
    · rintro ⟨l, h⟩
      exact ⟨(v, l), (hTm _ _).2 h, rfl⟩
  have hfl : (foreign dist me I).length = (g me).ghostN := by
    have hq : (foreign dist me I).Perm (T.map Prod.fst) :=
      (List.perm_ext_iff_of_nodup (List.nodup_dedup _) hTk).2 fun v => (hTf v).symm
    rw [hq.length_eq]
    show (((List.range' n (g me).ghostN).map _).map Prod.fst).length = _
    simp
  let nw : List Int := if I.vwgt = [] then [] else I.vwgt ++ List.replicate (localN dist me + (foreign dist me I).length) 0
  have hB : Built dist me I T { G with nodeWeights := nw } := by
    refine ⟨?_, ?_, ix.symm, iw.symm, rfl, ?_, ?_, hTk, ?_, hTf, ?_, ?_, ?_, ?_⟩
    · show G.rank = me
      rw [grank, R.rank_eq]
    · show G.dist = dist
      rw [gdist, R.dist_eq]
    · show G.edges.length = _
      rw [ia, List.length_map]
    · intro e v he
      have hle : e < (inp me).adjncy.length := by rw [← hal]; exact (List.getElem?_eq_some_iff.1 he).1
      refine ⟨(c.edges e).1, (hag e hle).2, ?_⟩
      rw [(hag e hle).1] at he
      have he := Option.some.inj he
      obtain ⟨l, w, a1, a2, a3⟩ := hsrc e hle
      by_cases hl : l < n
      · rw [if_pos hl] at a2
        have hb := (hpi l hl).1
        rw [hGl, a2] at he
        dsimp only at he
        rw [if_pos hb] at he
        have e2 : localN dist me = first dist (me + 1) - first dist me := rfl
        rw [if_pos (by omega), a2]
        omega
      · rw [if_neg hl] at a2
        have hlt := lt_total a1
        rw [hGl, a2] at he
        dsimp only at he
        rw [if_neg hl] at he
        rw [if_neg (by rw [← he]; exact (hnoown l (by omega) hlt).1), a2]
        exact (hTm _ _).2 ⟨⟨by omega, hlt⟩, he.symm⟩
    · rw [hfl, ← hn]
      show (((List.range' n (g me).ghostN).map _).map Prod.snd).Perm _
      rw [List.map_map]
      have : (List.range' n (g me).ghostN).map (Prod.snd ∘ fun l => (ρ (idOf (g me) l), l)) = List.range' n (g me).ghostN := by
        conv => rhs; rw [← List.map_id (List.range' n (g me).ghostN)]
        exact List.map_congr_left fun x _ => rfl
      rw [this]
    · rw [hfl]
      show _ ≤ G.ghostOwner.length
      rw [gown]
      rcases Nat.eq_zero_or_pos (g me).ghostN with h0 | hpos
      · omega
      · have := (hnoown (n + (g me).ghostN - 1) (by omega) (by omega)).2
        unfold DGraph.owner? at this
        obtain ⟨hlt, _⟩ := List.getElem?_eq_some_iff.1 this
        rw [hgn] at hlt
        omega
    · show G.ghostToGlobal.length = _
      rw [gtg, hfl]
      simp
    · intro v l h
      obtain ⟨⟨a1, a2⟩, rfl⟩ := (hTm v l).1 h
      rw [← hn]
      constructor
      · show G.ghostToGlobal[l - n]? = _
        rw [gtg, List.getElem?_map, List.getElem?_range (by omega), Option.map_some, h3 l a1 a2]
      · show G.ghostOwner[l - n]? = _
        rw [gown]
        have := (hnoown l a1 a2).2
        unfold DGraph.owner? at this
        rw [hgn] at this
        exact this
    · intro v l
      show G.globalToGhost.lookup (v + 1) = some l ↔ _
      rw [ggt, h4, hTm]
      constructor
      · rintro ⟨a, b⟩; exact ⟨a, by omega⟩
      · rintro ⟨a, b⟩; exact ⟨a, by omega⟩
  have hR0 := hB.represents hVal
  have hGt : G.totalN = (g me).totalN := by
    unfold DGraph.totalN DGraph.ghostN DGraph.n
    rw [gtg, gnodes, hnl]
    simp [DGraph.ghostN]
  have hvl : (inp me).vwgt ≠ [] → (inp me).vwgt.length = n ∧ (g me).totalN ≤ (g me).nodeWeights.length ∧ 0 < n ∧ n ≤ (g me).nodeWeights.length := by
    intro h
    have h6 := V.vwgt.resolve_left h
    rw [if_neg h] at hroom
    refine ⟨by rw [hn]; exact h6, hroom, ?_, by omega⟩
    rw [hn, ← h6]
    exact List.length_pos_of_ne_nil h
  have hIv : (inp me).vwgt ≠ [] → I.vwgt = (List.range n).map c.w := by
    intro h
    obtain ⟨_, _, _, a4⟩ := hvl h
    rw [iv, if_neg h, gnw, ← List.map_take, List.take_range, Nat.min_eq_left a4]
    refine List.map_congr_left fun u hu => ?_
    rw [List.mem_range] at hu
    rw [if_neg (by omega)]
  have hIv0 : (inp me).vwgt = [] → I.vwgt = [] ∧ G.nodeWeights = [] := by
    intro h
    rw [iv, if_pos h, gnw, hnw0 h]
    exact ⟨rfl, rfl⟩
  have hIvne : (inp me).vwgt ≠ [] → I.vwgt ≠ [] ∧ G.nodeWeights ≠ [] := by
    intro h
    obtain ⟨_, _, a3, a4⟩ := hvl h
    constructor
    · rw [hIv h]
      intro h'
      have := congrArg List.length h'
      simp at this
      omega
    · rw [gnw]
      intro h'
      have := congrArg List.length h'
      simp at this
      rw [this] at a4
      simp at a4
      omega
  have hRep : Represents dist me I G := by
    have := hR0.with_weights (j := I) (w := G.nodeWeights) rfl (fun _ _ => rfl) ?_ ?_
    · exact this
    · by_cases h : (inp me).vwgt = []
      · rw [if_pos (hIv0 h).1]; exact (hIv0 h).2
      · rw [if_neg (hIvne h).1]
        show G.totalN ≤ _
        rw [hGt, gnw]
        simpa using (hvl h).2.1
    · intro u hu
      rw [← hn] at hu
      unfold Input.nodeWeight
      by_cases h : (inp me).vwgt = []
      · rw [if_pos (hIv0 h).1, if_pos (hIv0 h).2]
      · rw [if_neg (hIvne h).1, if_neg (hIvne h).2, hIv h, gnw, getD_range_map hu, List.getElem?_map,
          List.getElem?_range (by have := (hvl h).2.2.2; omega), Option.map_some, if_neg (by omega)]
  have hcw : ∀ u, u < n → c.w ((perm me).oldToNew u) = (g me).nodeWeights.getD u 0 := hrows.weight
  refine ⟨G, I, hres, hVal, hRep, ⟨ix.symm, ?_, iw.symm, ?_⟩, ?_, ?_, ?_⟩
  · rw [ia, List.length_map]
  · by_cases h : (inp me).vwgt = []
    · exact ⟨[], by rw [(hIv0 h).1, (hIv0 h).2]; rfl, fun _ => rfl⟩
    · refine ⟨G.nodeWeights.drop n, ?_, fun h' => absurd h' (hIvne h).1⟩
      rw [iv, if_neg h, List.take_append_drop]
  · rw [← hn]; exact hnew
  · intro u hu
    rw [← hn] at hu
    unfold Input.nodeWeight
    by_cases h : (inp me).vwgt = []
    · rw [if_pos (hIv0 h).1, if_pos h]
    · rw [if_neg (hIvne h).1, if_neg h, hIv h, getD_range_map (hpi u hu).1, hcw u hu, hr1]
      rw [List.getD_eq_getElem?_getD, List.getD_eq_getElem?_getD, List.getElem?_append_left (by have := (hvl h).1; omega)]
  · intro l v hlv
    have hlt := lt_total hlv
    by_cases hl : l < n
    · have hown := R.own l (by rw [← hn]; exact hl)
      rw [hown] at hlv
      cases hlv
      refine ⟨(perm me).oldToNew l, ?_, ?_⟩
      · rw [hRep.own _ (by rw [← hn]; exact (hpi l hl).1), hρ me hme l (by rw [← hn]; exact hl)]
      · unfold DGraph.nodeWeight?
        by_cases h : (inp me).vwgt = []
        · rw [if_pos (hIv0 h).2, if_pos (hnw0 h)]
        · have hb := (hpi l hl).1
          have hle := (hvl h).2.2.2
          rw [if_neg (hIvne h).2, if_neg (fun h' => by rw [h'] at hle; simp at hle; omega), gnw, List.getElem?_map,
            List.getElem?_range (by omega), Option.map_some, if_neg (by omega), hcw l hl]
          exact (getDI_some (by omega)).symm
    · refine ⟨l, ?_, ?_⟩
      · have := hRep.n_eq
        unfold DGraph.localToGlobal?
        rw [this, ← hn, if_neg hl, gtg, List.getElem?_map, List.getElem?_range (by omega), Option.map_some, h3 l (by omega) hlt,
          idOf_of hlv]
      · unfold DGraph.nodeWeight?
        by_cases h : (inp me).vwgt = []
        · rw [if_pos (hIv0 h).2, if_pos (hnw0 h)]
        · have hle := (hvl h).2.1
          rw [if_neg (hIvne h).2, if_neg (fun h' => by rw [h'] at hle; simp at hle; omega), gnw, List.getElem?_map,
            List.getElem?_range (by omega), Option.map_some, if_pos (by omega)]
          exact (getDI_some (by omega)).symm

end Verif.Dist
