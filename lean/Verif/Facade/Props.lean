import Verif.Facade.Lemmas

/-!
# C25: the partition is reported in the caller's node IDs
-/

namespace Verif.Facade
open Verif.Math Verif.CsrGraph Verif.Permute Verif.Isolated Verif.Metrics Verif.Reduce Finset

/-! ## Specification -/

/-- The caller's graph, read off the arrays. -/
def callerGraph (n : Nat) (xadj adjncy : Nat → Nat) (vwgt adjwgt : Arr Int) : Graph :=
  { n := n, w := weightAt vwgt
    adj := fun u => (List.range' (xadj u) (xadj (u + 1) - xadj u)).map fun e => (adjncy e, weightAt adjwgt e) }

/-- The arrays describe an undirected graph with positive weights; sizes fit the integer types. -/
structure ValidInput (n : Nat) (xadj adjncy : Nat → Nat) (vwgt adjwgt : Arr Int) : Prop where
  first : xadj 0 = 0
  mono : ∀ u, u < n → xadj u ≤ xadj (u + 1)
  nodeWeights : Weights vwgt n
  edgeWeights : Weights adjwgt (xadj n)
  wf : (callerGraph n xadj adjncy vwgt adjwgt).WF
  symm : (callerGraph n xadj adjncy vwgt adjwgt).Symm
  width : n < 2 ^ 32

/-- The schedule is a schedule: every iteration of every parallel loop is executed exactly once. -/
structure Run.Ok (r : Run) (g0 : Graph) (nwSize ewSize : Nat) : Prop where
  conc : 0 < r.maxConc
  calls1 : r.calls1.Perm (deterministicForCalls r.maxConc 0 g0.n)
  calls2 : r.calls2.Perm (deterministicForCalls r.maxConc 0 g0.n)
  order0 : r.order0.Perm (List.range g0.n)
  order1 : r.order1.Perm (List.range g0.n)
  order2 : r.order2.Perm (List.range g0.n)
  nw : r.scheds.nw.covers 0 nwSize
  ew : r.scheds.ew.covers 0 ewSize
  out : r.outOrder.Perm (List.range g0.n)
  threads : ∀ c ∈ r.chunks, c.1 < r.threads
  chunks : (r.chunks.flatMap Prod.snd).Perm (List.range g0.n)

/-- The edge reordering permutes the edges of each node; C48 proves this of the code. -/
def Reorders (newEdges : G → Nat → Nat × Int) : Prop :=
  ∀ (g : G), (∀ u, u < g.n → g.nodes.data u ≤ g.nodes.data (u + 1)) → ∀ (u : Nat), u < g.n →
    ((List.range' (g.nodes.data u) (g.degree u)).map (newEdges g)).Perm (g.adjacentNodes u)

/-- Each node has less than `2^31` neighbours. -/
def SmallDegrees (g0 : Graph) : Prop := ∀ u, u < g0.n → (g0.adj u).length < 2 ^ 31

/-! ## Representation invariant -/

/-- The object holds the graph `g0` of the caller, with node `u` stored as node `π u`. -/
structure Repr (g0 : Graph) (nwSize ewSize : Nat) (π : Nat → Nat) (s : State) : Prop where
  size : s.g.nodes.size = g0.n + 1
  nwSize : s.g.nw.size = nwSize
  ewSize : s.g.ew.size = ewSize
  zero : s.g.nodes.data 0 = 0
  last : s.g.nodes.data g0.n = s.g.edges.size
  mono : ∀ u, u < g0.n → s.g.nodes.data u ≤ s.g.nodes.data (u + 1)
  nw : Weights s.g.nw g0.n
  ew : Weights s.g.ew s.g.edges.size
  totalNw : s.g.totalNw = ∑ u ∈ range g0.n, weightAt s.g.nw u
  totalEw : s.g.totalEw = ∑ e ∈ range s.g.edges.size, weightAt s.g.ew e
  perm : π = s.perm.getD id
  iso : Iso g0 s.g.graph π
  sorted : s.g.sorted = true → Sorted 32 s.g
  isolatedLast : s.g.sorted = true → ∀ x y, x ≤ y → y < g0.n → s.g.degree x = 0 → s.g.degree y = 0

section
variable {g0 : Graph} {nwSize ewSize : Nat} {π : Nat → Nat} {s : State}

theorem Repr.n (h : Repr g0 nwSize ewSize π s) : s.g.n = g0.n := by
  unfold G.n; rw [h.size]; rfl

theorem Repr.nodeWeight (h : Repr g0 nwSize ewSize π s) {u : Nat} (hu : u < g0.n) :
    s.g.nodeWeight u = weightAt s.g.nw u := by
  have := choose_eq h.nw h.totalNw hu
  rw [← h.n] at this
  exact this

theorem Repr.edgeWeight (h : Repr g0 nwSize ewSize π s) {e : Nat} (he : e < s.g.edges.size) :
    (if s.g.isEdgeWeighted then s.g.ew.data e else 1) = weightAt s.g.ew e :=
  choose_eq h.ew h.totalEw he

theorem Repr.edge_lt (h : Repr g0 nwSize ewSize π s) {u e : Nat} (hu : u < g0.n)
    (he : e ∈ List.range' (s.g.nodes.data u) (s.g.nodes.data (u + 1) - s.g.nodes.data u)) : e < s.g.edges.size := by
  have h1 := List.mem_range'_1.1 he
  have := mono_le h.mono (show u + 1 ≤ g0.n by omega) (Nat.le_refl _)
  have := h.last
  omega

theorem Repr.adj (h : Repr g0 nwSize ewSize π s) {u : Nat} (hu : u < g0.n) :
    s.g.adjacentNodes u = (List.range' (s.g.nodes.data u) (s.g.degree u)).map fun e =>
      (s.g.edges.data e, weightAt s.g.ew e) := by
  unfold G.adjacentNodes G.degree
  apply List.map_congr_left
  intro e he
  rw [h.edgeWeight (h.edge_lt hu he)]

theorem Repr.degree (h : Repr g0 nwSize ewSize π s) {u : Nat} (hu : u < g0.n) :
    s.g.degree (π u) = (g0.adj u).length := by
  have h1 := (h.iso.adj u hu).length_eq
  rw [List.length_map] at h1
  rw [← h1]
  show _ = (s.g.adjacentNodes (π u)).length
  unfold G.adjacentNodes G.degree
  rw [List.length_map, List.length_range']

end

theorem tele {nodes : Nat → Nat} : ∀ {n : Nat}, (∀ u, u < n → nodes u ≤ nodes (u + 1)) →
    ∑ u ∈ range n, ((nodes (u + 1) - nodes u : Nat) : Int) = (nodes n : Int) - nodes 0
  | 0, _ => by simp
  | n + 1, h => by
    rw [Finset.sum_range_succ, tele (n := n) fun u hu => h u (by omega)]
    have := h n (by omega)
    omega

/-- A freshly built unsorted graph represents the caller's graph. -/
theorem build_repr {lowest : Int} {n : Nat} {xadj adjncy : Nat → Nat} {vwgt adjwgt : Arr Int} {sc : Scheds}
    {nodes edges : Arr Nat} {nw ew : Arr Int} {g : G} (hg : build lowest nodes edges nw ew false sc = some g)
    (hv : ValidInput n xadj adjncy vwgt adjwgt) (h1 : nodes.data = xadj ∧ nodes.size = n + 1)
    (h2 : edges.data = adjncy ∧ edges.size = xadj n) (h3 : nw.data = vwgt.data ∧ nw.size = vwgt.size)
    (h4 : ew.data = adjwgt.data ∧ ew.size = adjwgt.size) (hs1 : sc.nw.covers 0 vwgt.size)
    (hs2 : sc.ew.covers 0 adjwgt.size) :
    Repr (callerGraph n xadj adjncy vwgt adjwgt) vwgt.size adjwgt.size id ⟨g, none, false⟩ := by
  unfold build at hg
  cases hb : initDegreeBuckets false (nodes.size - 1) fun u => nodes.data (u + 1) - nodes.data u with
  | none => rw [hb] at hg; exact absurd hg (fun h => nomatch h)
  | some bn =>
    rw [hb] at hg
    have hg := (Option.some.inj hg).symm
    have e1 : g.nodes = nodes := by rw [hg]
    have e2 : g.edges = edges := by rw [hg]
    have e3 : g.nw = nw := by rw [hg]
    have e4 : g.ew = ew := by rw [hg]
    have wn : Weights nw n := by unfold Weights; rw [h3.1, h3.2]; exact hv.nodeWeights
    have we : Weights ew (xadj n) := by unfold Weights; rw [h4.1, h4.2]; exact hv.edgeWeights
    have t1 : g.totalNw = ∑ u ∈ range n, weightAt nw u := by
      rw [hg]
      show (if nw.size = 0 then ((nodes.size - 1 : Nat) : Int) else accumulate nw.data 0 sc.nw) = _
      rw [h1.2]
      exact total_eq wn (by rw [h3.2]; exact hs1)
    have t2 : g.totalEw = ∑ e ∈ range (xadj n), weightAt ew e := by
      rw [hg]
      show (if ew.size = 0 then (edges.size : Int) else accumulate ew.data 0 sc.ew) = _
      rw [h2.2]
      exact total_eq we (by rw [h4.2]; exact hs2)
    have hn : g.n = n := by unfold G.n; rw [e1, h1.2]; rfl
    have hm : g.m = xadj n := by unfold G.m; rw [e2, h2.2]
    refine ⟨by rw [e1]; exact h1.2, by rw [e3]; exact h3.2, by rw [e4]; exact h4.2, by rw [e1, h1.1]; exact hv.first,
      by rw [e1, e2, h1.1, h2.2]; rfl, fun u hu => by rw [e1, h1.1]; exact hv.mono u hu, by rw [e3]; exact wn,
      by rw [e4, e2, h2.2]; exact we, by rw [e3]; exact t1, by rw [e4, e2, h2.2]; exact t2, rfl, ?_, ?_, ?_⟩
    · refine ⟨hn, fun u hu => hu, fun u v _ _ h => h, fun u hu => ?_, fun u hu => ?_⟩
      · show g.nodeWeight u = weightAt vwgt u
        have := choose_eq wn t1 hu
        rw [← hn, ← e3] at this
        refine Eq.trans this ?_
        unfold weightAt
        rw [e3, h3.1, h3.2]
      · show (g.adjacentNodes u).Perm _
        have : g.adjacentNodes u = ((callerGraph n xadj adjncy vwgt adjwgt).adj u).map fun e => (id e.1, e.2) := by
          show _ = ((List.range' (xadj u) (xadj (u + 1) - xadj u)).map fun e => (adjncy e, weightAt adjwgt e)).map _
          unfold G.adjacentNodes
          rw [List.map_map, e1, e2, e4, h1.1, h2.1]
          apply List.map_congr_left
          intro e he
          have h5 := List.mem_range'_1.1 he
          have h6 := mono_le hv.mono (show u + 1 ≤ n from hu) (Nat.le_refl _)
          have := choose_eq we t2 (show e < xadj n by omega)
          rw [← hm] at this
          show (adjncy e, _) = (adjncy e, weightAt adjwgt e)
          refine congrArg (Prod.mk _) (Eq.trans this ?_)
          unfold weightAt
          rw [h4.1, h4.2]
        rw [this]
    · intro h
      have : g.sorted = false := by rw [hg]
      rw [show g.sorted = true from h] at this
      exact nomatch this
    · intro h
      have : g.sorted = false := by rw [hg]
      rw [show g.sorted = true from h] at this
      exact nomatch this

/-- Sorting the nodes by degree buckets keeps the representation, with a new numbering. -/
theorem rearrange_repr {g0 : Graph} {nwSize ewSize : Nat} {s : State} {lowest : Int} {r : Run}
    (h : Repr g0 nwSize ewSize id s) (hr : r.Ok g0 nwSize ewSize) (hlow : lowest ≤ 1) (hwidth : g0.n < 2 ^ 32)
    (hdeg : SmallDegrees g0) (hn : 0 < g0.n) :
    ∃ s', rearrange lowest r s = some s' ∧ s'.rearranged = s.rearranged ∧ ∃ π, Repr g0 nwSize ewSize π s' := by
  have hsn := h.n
  have hd : ∀ u, u < g0.n → s.g.degree u < 2 ^ 31 := fun u hu => by
    have h1 := h.degree hu
    rw [id] at h1
    rw [h1]; exact hdeg u hu
  unfold rearrange
  set c : Csr := ⟨s.g.n, s.g.nodes.data, fun e => (s.g.edges.data e, s.g.ew.data e), s.g.nw.data⟩ with hc
  set bk : Nat → Nat := fun u => (bucketOf true (s.g.degree u)).getD 0 with hbk
  have hbk1 : ∀ u, u < s.g.n → bucketOf true (s.g.degree u) = some (bk u) := by
    intro u hu
    have := bucketOf_eq (Nat.lt_trans (hd u (hsn ▸ hu)) (by decide))
    simp only [hbk, this, Option.getD_some]
  have hbk2 : ∀ u, u < s.g.n → bk u < numDegreeBuckets := by
    intro u hu
    have h1 := hbk1 u hu
    rw [bucketOf_eq (Nat.lt_trans (hd u (hsn ▸ hu)) (by decide))] at h1
    rw [← Option.some.inj h1]
    unfold numDegreeBuckets
    split
    · omega
    · rename_i h0
      have := log2_lt h0 (hd u (hsn ▸ hu))
      omega
  set p := byBuckets r.maxConc s.g.n numDegreeBuckets bk r.garbage r.calls1 r.calls2 r.order0 with hp
  obtain ⟨b1, b2, _⟩ := C22_bijection_sorted_stable r.maxConc s.g.n numDegreeBuckets bk r.garbage hr.conc hbk2 r.calls1
    r.calls2 r.order0 (hsn ▸ hr.calls1) (hsn ▸ hr.calls2) (hsn ▸ hr.order0)
  rw [← hp] at b1 b2
  have border := (C22_degree_order_partial r.maxConc s.g.n s.g.degree bk r.garbage hr.conc (fun u hu => hd u (hsn ▸ hu))
    hbk1 r.calls1 r.calls2 r.order0 (hsn ▸ hr.calls1) (hsn ▸ hr.calls2) (hsn ▸ hr.order0)).1
  rw [← hp] at border
  obtain ⟨_, c2, c3, c4, c5⟩ := C22_permuted_graph false c p r.order1 r.order2 r.garbage r.garbageE r.garbageW b1
    (show r.order1.Perm (List.range s.g.n) from hsn ▸ hr.order1) (show r.order2.Perm (List.range s.g.n) from hsn ▸ hr.order2)
  set c' := buildPermuted false c p r.order1 r.order2 r.garbage r.garbageE r.garbageW with hc'
  rw [show c.n = s.g.n from rfl, hsn] at c2 c3 c5
  rw [hsn] at b1 b2 border
  have c3 : ∀ u, u < g0.n → c'.graph.adj (p.oldToNew u) = ((c.graph.adj u).map fun e => (p.oldToNew e.1, e.2)).reverse := by
    intro u hu
    rw [c3 u hu]
    congr 1
  have hadjc : ∀ x, c'.graph.adj x = (List.range' (c'.nodes x) (c'.nodes (x + 1) - c'.nodes x)).map c'.edges := fun _ => rfl
  have hadjo : ∀ u, c.graph.adj u = (List.range' (s.g.nodes.data u) (s.g.degree u)).map fun e =>
      (s.g.edges.data e, s.g.ew.data e) := fun _ => rfl
  have hdeg' : ∀ u, u < g0.n → c'.nodes (p.oldToNew u + 1) - c'.nodes (p.oldToNew u) = s.g.degree u := by
    intro u hu
    have := congrArg List.length (c3 u hu)
    rw [hadjc, hadjo] at this
    simpa using this
  have hinj : ∀ u v, u < g0.n → v < g0.n → p.oldToNew u = p.oldToNew v → u = v := by
    intro u v hu hv he
    rw [← (b1 u hu).2, ← (b1 v hv).2, he]
  have hsurj : ∀ x, x < g0.n → ∃ u, u < g0.n ∧ p.oldToNew u = x := fun x hx => ⟨p.newToOld x, (b2 x hx).1, (b2 x hx).2⟩
  have hlast : c'.nodes g0.n = s.g.edges.size := by
    have t1 := tele (nodes := c'.nodes) (n := g0.n) c5
    have t2 := tele (nodes := s.g.nodes.data) (n := g0.n) h.mono
    rw [sum_bij_range (π := p.oldToNew) (fun u hu => (b1 u hu).1) hinj] at t1
    rw [Finset.sum_congr rfl fun u hu => by rw [hdeg' u (mem_range.1 hu)]] at t1
    have t3 : ∑ u ∈ range g0.n, ((s.g.degree u : Nat) : Int) =
      ∑ u ∈ range g0.n, ((s.g.nodes.data (u + 1) - s.g.nodes.data u : Nat) : Int) := rfl
    have := h.zero
    have := h.last
    omega
  have wn : Weights (.owned c'.w s.g.nw.size) g0.n := by
    refine ⟨h.nw.1, fun i hi => ?_⟩
    have hi : i < s.g.nw.size := hi
    have hsz : s.g.nw.size = g0.n := h.nw.1.resolve_left (by omega)
    obtain ⟨u, hu, rfl⟩ := hsurj i (by omega)
    show 1 ≤ c'.w (p.oldToNew u)
    rw [show c'.w (p.oldToNew u) = s.g.nw.data u from c2 u hu]
    exact h.nw.2 u (by omega)
  have we : Weights (.owned (fun e => (c'.edges e).2) s.g.ew.size) s.g.edges.size := by
    refine ⟨h.ew.1, fun e he => ?_⟩
    have he : e < s.g.ew.size := he
    have hsz : s.g.ew.size = s.g.edges.size := h.ew.1.resolve_left (by omega)
    obtain ⟨x, hx, hmem⟩ := edge_owner (e := e) c5 (by rw [c4]; omega) (by rw [hlast]; omega)
    obtain ⟨u, hu, rfl⟩ := hsurj x hx
    have h1 : c'.edges e ∈ c'.graph.adj (p.oldToNew u) := List.mem_map.2 ⟨e, hmem, rfl⟩
    rw [c3 u hu, List.mem_reverse] at h1
    obtain ⟨y, hy, hye⟩ := List.mem_map.1 h1
    rw [hadjo] at hy
    obtain ⟨e0, he0, rfl⟩ := List.mem_map.1 hy
    show 1 ≤ (c'.edges e).2
    rw [← hye]
    refine h.ew.2 e0 ?_
    have := h.edge_lt hu he0
    omega
  have hdefined : build lowest (.owned c'.nodes s.g.nodes.size) (.owned (fun e => (c'.edges e).1) s.g.edges.size)
      (.owned c'.w s.g.nw.size) (.owned (fun e => (c'.edges e).2) s.g.ew.size) true r.scheds ≠ none := by
    intro hnone
    have := (C26_build_defined lowest _ _ _ _ true r.scheds (fun x hx => by
      have hx : x < s.g.nodes.size - 1 := hx
      obtain ⟨u, hu, rfl⟩ := hsurj x (by have := h.size; omega)
      show c'.nodes (p.oldToNew u + 1) - c'.nodes (p.oldToNew u) < _
      rw [hdeg' u hu]
      exact Nat.lt_trans (hd u hu) (by decide))).1 hnone
    have h1 : s.g.nodes.size - 1 = 0 := this.2
    have := h.size
    omega
  obtain ⟨g, hg⟩ := Option.ne_none_iff_exists'.1 hdefined
  have hsize := h.size
  have hsorted : Sorted 32 g := by
    refine build_sorted hg ?_ ⟨rfl, rfl⟩ ?_ ?_ hlow ?_ ?_ ?_ ?_
    · show 0 < s.g.nodes.size; omega
    · show s.g.nodes.size - 1 < 2 ^ 32; omega
    · show Weights _ (s.g.nodes.size - 1); rw [hsize]; exact wn
    · intro u hu; exact c5 u (by have hu : u < s.g.nodes.size - 1 := hu; omega)
    · intro u hu
      have hu : u < s.g.nodes.size - 1 := hu
      show c'.nodes (u + 1) ≤ s.g.edges.size
      rw [← hlast]
      exact mono_le c5 (by omega) (Nat.le_refl _)
    · intro x hx
      have hx : x < s.g.nodes.size - 1 := hx
      obtain ⟨u, hu, rfl⟩ := hsurj x (by omega)
      show c'.nodes (p.oldToNew u + 1) - c'.nodes (p.oldToNew u) < _
      rw [hdeg' u hu]
      exact Nat.lt_trans (hd u hu) (by decide)
    · show r.scheds.nw.covers 0 s.g.nw.size
      rw [h.nwSize]; exact hr.nw
  refine ⟨⟨g, some p.oldToNew, s.rearranged⟩, ?_, rfl, p.oldToNew, ?_⟩
  · show Option.map (fun g => (⟨g, some p.oldToNew, s.rearranged⟩ : State)) (build lowest
      (.owned c'.nodes s.g.nodes.size) (.owned (fun e => (c'.edges e).1) s.g.edges.size)
      (.owned c'.w s.g.nw.size) (.owned (fun e => (c'.edges e).2) s.g.ew.size) true r.scheds) = _
    rw [hg]; rfl
  unfold build at hg
  cases hb : initDegreeBuckets true ((Arr.owned c'.nodes s.g.nodes.size).size - 1)
      fun u => (Arr.owned c'.nodes s.g.nodes.size).data (u + 1) - (Arr.owned c'.nodes s.g.nodes.size).data u with
  | none => rw [hb] at hg; exact absurd hg (fun h => nomatch h)
  | some bn =>
    rw [hb] at hg
    have hg := (Option.some.inj hg).symm
    have e1 : g.nodes = .owned c'.nodes s.g.nodes.size := by rw [hg]
    have e2 : g.edges = .owned (fun e => (c'.edges e).1) s.g.edges.size := by rw [hg]
    have e3 : g.nw = .owned c'.w s.g.nw.size := by rw [hg]
    have e4 : g.ew = .owned (fun e => (c'.edges e).2) s.g.ew.size := by rw [hg]
    have t1 : g.totalNw = ∑ u ∈ range g0.n, weightAt (.owned c'.w s.g.nw.size) u := by
      rw [hg]
      show (if s.g.nw.size = 0 then ((s.g.nodes.size - 1 : Nat) : Int) else accumulate c'.w 0 r.scheds.nw) = _
      rw [hsize]
      exact total_eq wn (show r.scheds.nw.covers 0 s.g.nw.size by rw [h.nwSize]; exact hr.nw)
    have t2 : g.totalEw = ∑ e ∈ range s.g.edges.size, weightAt (.owned (fun e => (c'.edges e).2) s.g.ew.size) e := by
      rw [hg]
      exact total_eq we (show r.scheds.ew.covers 0 s.g.ew.size by rw [h.ewSize]; exact hr.ew)
    have hgn : g.n = g0.n := by unfold G.n; rw [e1]; show s.g.nodes.size - 1 = _; omega
    have hgm : g.m = s.g.edges.size := by unfold G.m; rw [e2]; rfl
    have hgd : ∀ x, g.degree x = c'.nodes (x + 1) - c'.nodes x := by
      intro x; unfold G.degree; rw [e1]; rfl
    refine ⟨by rw [e1]; exact hsize, by rw [e3]; exact h.nwSize, by rw [e4]; exact h.ewSize, by rw [e1]; exact c4,
      by rw [e1, e2]; exact hlast, fun u hu => by rw [e1]; exact c5 u hu, by rw [e3]; exact wn,
      by rw [e4, e2]; exact we, by rw [e3]; exact t1, by rw [e4, e2]; exact t2, rfl, ?_, fun _ => hsorted, ?_⟩
    · refine ⟨hgn, fun u hu => (b1 u hu).1, hinj, fun u hu => ?_, fun u hu => ?_⟩
      · show g.nodeWeight (p.oldToNew u) = _
        have := choose_eq wn t1 (b1 u hu).1
        have h1 : g.nodeWeight (p.oldToNew u) = weightAt (.owned c'.w s.g.nw.size) (p.oldToNew u) := by
          rw [← this]
          unfold G.nodeWeight G.isNodeWeighted
          rw [hgn, e3]
        have h2 : s.g.nodeWeight u = g0.w u := h.iso.w u hu
        rw [h1, ← h2, h.nodeWeight hu]
        unfold weightAt
        show (if s.g.nw.size = 0 then 1 else c'.w (p.oldToNew u)) = _
        rw [show c'.w (p.oldToNew u) = s.g.nw.data u from c2 u hu]
      · show (g.adjacentNodes (p.oldToNew u)).Perm _
        have h1 : g.adjacentNodes (p.oldToNew u) = (c'.graph.adj (p.oldToNew u)).map
            fun x => (x.1, if s.g.ew.size = 0 then 1 else x.2) := by
          rw [hadjc, List.map_map]
          unfold G.adjacentNodes
          rw [e1]
          apply List.map_congr_left
          intro e he
          have h5 := List.mem_range'_1.1 he
          have h6 : c'.nodes (p.oldToNew u + 1) ≤ c'.nodes g0.n := mono_le c5 (b1 u hu).1 (Nat.le_refl _)
          have h7 : c'.nodes (p.oldToNew u) ≤ e := h5.1
          have h8 : e < c'.nodes (p.oldToNew u) + (c'.nodes (p.oldToNew u + 1) - c'.nodes (p.oldToNew u)) := h5.2
          have := choose_eq we t2 (show e < s.g.edges.size by omega)
          rw [← hgm] at this
          rw [e2, e4]
          exact congrArg (Prod.mk _) this
        have h2 : s.g.adjacentNodes u = (c.graph.adj u).map fun x => (x.1, if s.g.ew.size = 0 then 1 else x.2) := by
          rw [h.adj hu, hadjo, List.map_map]
          rfl
        have h3 : (s.g.adjacentNodes u).Perm (g0.adj u) := by
          have := h.iso.adj u hu
          have hid : (g0.adj u).map (fun e => (id e.1, e.2)) = g0.adj u := List.map_id _
          rw [hid] at this
          exact this
        have h4 := h3.map fun e : Nat × Int => (p.oldToNew e.1, e.2)
        refine List.Perm.trans ?_ h4
        rw [h1, c3 u hu, h2, List.map_reverse, List.map_map, List.map_map]
        exact List.reverse_perm _
    · intro _ x y hxy hy hdx
      obtain ⟨u, hu, rfl⟩ := hsurj x (by omega)
      obtain ⟨v, hv, rfl⟩ := hsurj y hy
      have hdx : g.degree (p.oldToNew u) = 0 := hdx
      show g.degree (p.oldToNew v) = 0
      rw [hgd, hdeg' u hu] at hdx
      rw [hgd, hdeg' v hv]
      by_contra hne
      have := border v u hv hu hne hdx
      omega

/-- Reordering the edges of each node keeps the representation. -/
theorem reorder_repr {g0 : Graph} {nwSize ewSize : Nat} {π : Nat → Nat} {s : State} {newEdges : G → Nat → Nat × Int}
    (h : Repr g0 nwSize ewSize π s) (hre : Reorders newEdges) : Repr g0 nwSize ewSize π (reorder newEdges s) := by
  obtain ⟨s', hs'⟩ : ∃ s', s' = reorder newEdges s := ⟨_, rfl⟩
  rw [← hs']
  have e1 : s'.g.nodes = s.g.nodes := by rw [hs']; rfl
  have e2 : s'.g.edges.size = s.g.edges.size := by rw [hs']; rfl
  have e2' : ∀ e, s'.g.edges.data e = (newEdges s.g e).1 := fun e => by rw [hs']; rfl
  have e3 : s'.g.nw = s.g.nw := by rw [hs']; rfl
  have e4 : s'.g.ew = if s.g.isEdgeWeighted then { s.g.ew with data := fun e => (newEdges s.g e).2 } else s.g.ew := by
    rw [hs']; rfl
  have e4s : s'.g.ew.size = s.g.ew.size := by rw [e4]; split <;> rfl
  have e5 : s'.g.totalEw = s.g.totalEw := by rw [hs']; rfl
  have e6 : s'.g.totalNw = s.g.totalNw := by rw [hs']; rfl
  have e7 : s'.perm = s.perm := by rw [hs']; rfl
  have e8 : s'.g.isEdgeWeighted = s.g.isEdgeWeighted := by unfold G.isEdgeWeighted G.m; rw [e2, e5]
  have hperm : ∀ u, u < g0.n → ((List.range' (s.g.nodes.data u) (s.g.degree u)).map (newEdges s.g)).Perm
      (s.g.adjacentNodes u) :=
    fun u hu => hre s.g (fun v hv => h.mono v (by rw [← h.n]; exact hv)) u (by rw [h.n]; exact hu)
  have hmem : ∀ e, e < s.g.edges.size → ∃ e0, e0 < s.g.edges.size ∧
      newEdges s.g e = (s.g.edges.data e0, weightAt s.g.ew e0) := by
    intro e he
    obtain ⟨u, hu, hm⟩ := edge_owner (e := e) h.mono (by rw [h.zero]; omega) (by rw [h.last]; exact he)
    have h1 : newEdges s.g e ∈ s.g.adjacentNodes u := (hperm u hu).mem_iff.1 (List.mem_map.2 ⟨e, hm, rfl⟩)
    rw [h.adj hu] at h1
    obtain ⟨e0, he0, h2⟩ := List.mem_map.1 h1
    exact ⟨e0, h.edge_lt hu he0, h2.symm⟩
  -- the new weights, seen through the accessor
  have hw : ∀ e, e < s.g.edges.size → (if s'.g.isEdgeWeighted then s'.g.ew.data e else 1) = (newEdges s.g e).2 := by
    intro e he
    rw [e8, e4]
    by_cases hew : s.g.isEdgeWeighted = true
    · rw [if_pos hew, if_pos hew]
    · rw [if_neg hew]
      obtain ⟨e0, he0, h1⟩ := hmem e he
      rw [h1]
      have := h.edgeWeight he0
      rw [if_neg hew] at this
      exact this
  have wsize : s.g.isEdgeWeighted = true → s.g.ew.size = s.g.edges.size := by
    intro hew
    refine h.ew.1.resolve_left fun h0 => ?_
    unfold G.isEdgeWeighted G.m at hew
    rw [h.totalEw] at hew
    unfold weightAt at hew
    simp [h0] at hew
  have hwa : ∀ e, e < s.g.edges.size → weightAt s'.g.ew e = (newEdges s.g e).2 := by
    intro e he
    rw [← hw e he]
    unfold weightAt
    rw [e8, e4s]
    by_cases hew : s.g.isEdgeWeighted = true
    · have := wsize hew
      rw [if_pos hew, if_neg (by omega)]
    · rw [if_neg hew, e4, if_neg hew]
      have := h.edgeWeight he
      rw [if_neg hew] at this
      exact this.symm
  have we : Weights s'.g.ew s.g.edges.size := by
    refine ⟨by rw [e4s]; exact h.ew.1, fun e he => ?_⟩
    rw [e4s] at he
    have hsz : s.g.ew.size = s.g.edges.size := h.ew.1.resolve_left (by omega)
    have h1 := hwa e (by omega)
    unfold weightAt at h1
    rw [e4s, if_neg (by omega)] at h1
    rw [h1]
    obtain ⟨e0, he0, h2⟩ := hmem e (by omega)
    rw [h2]
    show 1 ≤ weightAt s.g.ew e0
    unfold weightAt
    rw [if_neg (by omega)]
    exact h.ew.2 e0 (by omega)
  have hadj : ∀ u, u < g0.n → s'.g.adjacentNodes u = (List.range' (s.g.nodes.data u) (s.g.degree u)).map (newEdges s.g) := by
    intro u hu
    unfold G.adjacentNodes G.degree
    rw [e1]
    apply List.map_congr_left
    intro e he
    rw [hw e (h.edge_lt hu he), e2']
  have hn' : s'.g.n = g0.n := by unfold G.n; rw [e1]; exact h.n
  have htot : ∑ e ∈ range s.g.edges.size, weightAt s'.g.ew e = ∑ e ∈ range s.g.edges.size, weightAt s.g.ew e := by
    have hf := (flat_ranges (nodes := s.g.nodes.data) (n := g0.n) h.mono).2
    rw [h.zero, h.last, Nat.sub_zero] at hf
    have hrange : List.range s.g.edges.size = (List.range g0.n).flatMap
        fun u => List.range' (s.g.nodes.data u) (s.g.nodes.data (u + 1) - s.g.nodes.data u) := by
      rw [hf, List.range_eq_range']
    rw [Finset.sum_congr rfl fun e he => hwa e (mem_range.1 he)]
    have hs : ∀ f : Nat → Int, ∑ e ∈ range s.g.edges.size, f e = ((List.range s.g.edges.size).map f).sum :=
      fun f => Metrics.sum_range_list _ f
    rw [hs, hs, hrange, List.map_flatMap, List.map_flatMap]
    refine List.Perm.sum_eq ?_
    refine List.Perm.flatMap_left _ fun u hu => ?_
    have hu := List.mem_range.1 hu
    have := (hperm u hu).map Prod.snd
    rw [h.adj hu, List.map_map, List.map_map] at this
    exact this
  refine ⟨by rw [e1]; exact h.size, by rw [e3]; exact h.nwSize, by rw [e4s]; exact h.ewSize, by rw [e1]; exact h.zero,
    by rw [e1, e2]; exact h.last, by rw [e1]; exact h.mono, by rw [e3]; exact h.nw, by rw [e2]; exact we,
    by rw [e6, e3]; exact h.totalNw, by rw [e5, e2, htot]; exact h.totalEw, by rw [e7]; exact h.perm, ?_, ?_, ?_⟩
  · refine ⟨hn', h.iso.lt, h.iso.inj, fun u hu => ?_, fun u hu => ?_⟩
    · rw [← h.iso.w u hu]
      show s'.g.nodeWeight _ = s.g.nodeWeight _
      unfold G.nodeWeight G.isNodeWeighted
      rw [e6, e3, hn', h.n]
    · refine List.Perm.trans ?_ (h.iso.adj u hu)
      show (s'.g.adjacentNodes (π u)).Perm (s.g.adjacentNodes (π u))
      rw [hadj _ (h.iso.lt u hu)]
      exact hperm _ (h.iso.lt u hu)
  · intro hs
    rw [hs'] at hs ⊢
    obtain ⟨f1, f2, f3, f4, f5, f6, f7, f8, f9, f10, f11, f12, f13⟩ := h.sorted hs
    exact ⟨f1, f2, f3, f4, f5, f6, f7, f8, f9, f10, f11, f12, f13⟩
  · intro hs
    rw [hs'] at hs ⊢
    exact h.isolatedLast hs

/-! ## The property -/

/-- One call of `compute_partition`. -/
structure Call where
  o : Opts
  newEdges : G → Nat → Nat × Int
  k : Nat
  mx : Nat → Int
  partitioner : G → Nat → Nat
  r : Run
  out : Nat → Nat

/-- What is assumed of a call. -/
structure Call.Ok (c : Call) (g0 : Graph) (nwSize ewSize : Nat) : Prop where
  run : c.r.Ok g0 nwSize ewSize
  reorders : Reorders c.newEdges
  k : 0 < c.k
  partitioner : ∀ (g : G) (u : Nat), u < g.n → c.partitioner g u < c.k
  sortable : c.o.degreeBuckets = true → 0 < g0.n ∧ SmallDegrees g0

def Call.run (lowest : Int) (c : Call) (s : State) : Option (State × (Nat → Nat) × Option Int) :=
  compute lowest c.o c.newEdges c.k c.mx c.partitioner c.r c.out s

/-- The graph `h` given to the partitioner is the caller's graph with node `u` named `π u`, except that isolated
nodes may be missing. -/
structure Seen (g0 : Graph) (π : Nat → Nat) (h : G) : Prop where
  nodes : ∀ x, x < h.n → ∃ u, u < g0.n ∧ π u = x
  inj : ∀ u v, u < g0.n → v < g0.n → π u = π v → u = v
  missing : ∀ u, u < g0.n → ¬ π u < h.n → g0.adj u = []
  weights : ∀ u, u < g0.n → π u < h.n → h.nodeWeight (π u) = g0.w u
  edges : ∀ u, u < g0.n → π u < h.n → (h.adjacentNodes (π u)).Perm ((g0.adj u).map fun e => (π e.1, e.2))

/-- The result of a call is right: a partition of the caller's nodes into `k` blocks, which for every node that was
given to the partitioner is the partitioner's block of this node, together with the cut of this partition. -/
def Right (g0 : Graph) (c : Call) (out : Nat → Nat) (value : Option Int) : Prop :=
  (∀ u, u < g0.n → out u < c.k) ∧ value = some (g0.cut out) ∧
  ∃ π h, Seen g0 π h ∧ ∀ u, u < g0.n → π u < h.n → out u = c.partitioner h (π u)

theorem out_loop (f : Nat → Nat) : ∀ (l : List Nat) (out : Nat → Nat) (u : Nat),
    l.foldl (fun out u => upd out u (f u)) out u = if u ∈ l then f u else out u
  | [], out, u => by simp
  | a :: l, out, u => by
    rw [List.foldl_cons, out_loop f l]
    by_cases h : u ∈ l
    · rw [if_pos h, if_pos (List.mem_cons_of_mem _ h)]
    · rw [if_neg h]
      by_cases ha : u = a
      · subst ha; rw [upd_same, if_pos List.mem_cons_self]
      · rw [upd_ne _ _ ha, if_neg]
        intro hm
        rcases List.mem_cons.1 hm with rfl | hm
        · exact ha rfl
        · exact h hm

theorem cut_congr {g : Graph} {p q : Nat → Nat} (h : ∀ u, u < g.n → p u = q u) : g.cut p = g.cut q := by
  unfold Graph.cut
  apply Finset.sum_congr rfl
  intro u hu
  apply Finset.sum_congr rfl
  intro v hv
  have hu := mem_range.1 hu
  have hv := mem_range.1 hv
  rw [h u hu, h v (by omega)]

theorem finish_spec {g0 : Graph} {nwSize ewSize : Nat} {π : Nat → Nat} {s : State} {r : Run}
    (h : Repr g0 nwSize ewSize π s) (hr : r.Ok g0 nwSize ewSize) (hwf : g0.WF) (hsymm : g0.Symm) (part out : Nat → Nat) :
    (∀ u, u < g0.n → (finish r s part out).1 u = part (π u)) ∧
    (finish r s part out).2 = some (g0.cut (finish r s part out).1) := by
  have h1 : ∀ u, u < g0.n → (finish r s part out).1 u = part (π u) := by
    intro u hu
    refine (out_loop (fun u => part (match s.perm with
      | none => u
      | some p => p u)) _ _ _).trans ?_
    rw [if_pos (hr.out.mem_iff.2 (List.mem_range.2 hu)), h.perm]
    cases s.perm <;> rfl
  refine ⟨h1, ?_⟩
  show edgeCutPar s.g.graph part r.threads r.chunks = _
  rw [C19_edge_cut_parallel s.g.graph (h.iso.wf hwf) (h.iso.symm hwf hsymm) part r.threads r.chunks hr.threads
    (by rw [h.iso.n]; exact hr.chunks), h.iso.cut hwf hsymm]
  congr 1
  exact cut_congr fun u hu => (h1 u hu).symm

theorem preprocess_repr {g0 : Graph} {nwSize ewSize : Nat} {s : State} {lowest : Int} {c : Call}
    (h : ∃ π, Repr g0 nwSize ewSize π s ∧ (s.rearranged = false → s.perm = none)) (hc : c.Ok g0 nwSize ewSize)
    (hlow : lowest ≤ 1) (hwidth : g0.n < 2 ^ 32) :
    ∃ s', preprocess lowest c.o c.newEdges c.r s = some s' ∧ ∃ π, Repr g0 nwSize ewSize π s' ∧ s'.rearranged = true := by
  obtain ⟨π, h, hperm⟩ := h
  unfold preprocess
  by_cases hre : s.rearranged = true
  · rw [if_pos hre]; exact ⟨s, rfl, π, h, hre⟩
  rw [if_neg hre]
  have key : ∃ s1, (if (c.o.degreeBuckets && !s.g.sorted) = true then rearrange lowest c.r s else some s) = some s1 ∧
      ∃ π, Repr g0 nwSize ewSize π s1 := by
    by_cases hb : (c.o.degreeBuckets && !s.g.sorted) = true
    · rw [if_pos hb]
      have hpid : π = id := by
        rw [h.perm, hperm (by simpa using hre)]; rfl
      subst hpid
      obtain ⟨hpos, hdeg⟩ := hc.sortable (by simp at hb; exact hb.1)
      obtain ⟨s1, a, _, b⟩ := rearrange_repr h hc.run hlow hwidth hdeg hpos
      exact ⟨s1, a, b⟩
    · rw [if_neg hb]; exact ⟨s, rfl, π, h⟩
  obtain ⟨s1, h1, π1, h2⟩ := key
  rw [h1]
  refine ⟨_, rfl, π1, ?_, rfl⟩
  have h3 : Repr g0 nwSize ewSize π1 (if c.o.reorderEdges then reorder c.newEdges s1 else s1) := by
    split
    · exact reorder_repr h2 hc.reorders
    · exact h2
  obtain ⟨f1, f2, f3, f4, f5, f6, f7, f8, f9, f10, f11, f12, f13, f14⟩ := h3
  exact ⟨f1, f2, f3, f4, f5, f6, f7, f8, f9, f10, f11, f12, f13, f14⟩

theorem compute_spec {g0 : Graph} {nwSize ewSize : Nat} {s : State} {lowest : Int} {c : Call}
    (h : ∃ π, Repr g0 nwSize ewSize π s ∧ (s.rearranged = false → s.perm = none)) (hc : c.Ok g0 nwSize ewSize)
    (hlow : lowest ≤ 1) (hwidth : g0.n < 2 ^ 32) (hwf : g0.WF) (hsymm : g0.Symm) :
    ∃ s' out value, c.run lowest s = some (s', out, value) ∧
      (∃ π, Repr g0 nwSize ewSize π s' ∧ (s'.rearranged = false → s'.perm = none)) ∧ Right g0 c out value := by
  obtain ⟨s1, h1, π, h2, h3⟩ := preprocess_repr h hc hlow hwidth
  unfold Call.run compute
  rw [h1]
  by_cases hs : s1.g.sorted = true
  · have hsorted := h2.sorted hs
    have hnum : s1.g.countIsolated ≤ s1.g.n := by
      unfold G.countIsolated
      have := List.countP_le_length (p := fun u => decide (s1.g.degree u = 0)) (l := List.range s1.g.n)
      rwa [List.length_range] at this
    have hn := h2.n
    have hiso : ∀ u, u < s1.g.n → (s1.g.degree u = 0 ↔ s1.g.n - s1.g.countIsolated ≤ u) := by
      intro u hu
      have := upward_countP (P := fun u => decide (s1.g.degree u = 0)) (n := s1.g.n)
        (fun x y hxy hy hx => by
          simp only [decide_eq_true_eq] at hx ⊢
          exact h2.isolatedLast hs x y hxy (by omega) hx) u hu
      simp only [decide_eq_true_eq] at this
      exact this
    have hint := C23_remove_integrate 32 s1.g hsorted _ hnum
    obtain ⟨r1, _, _, r4, _⟩ := C23_remaining_graph 32 s1.g hsorted _ hnum hiso
    obtain ⟨g', hg'⟩ : ∃ g', g' = s1.g.removeIsolated 32 s1.g.countIsolated := ⟨_, rfl⟩
    rw [← hg'] at hint r1 r4
    obtain ⟨a1, a2, _, _⟩ := C24_assignment s1.g.n s1.g.countIsolated c.k c.mx s1.g.nodeWeight (c.partitioner g')
      (blockWeights g' (c.partitioner g')) c.r.garbage hc.k hnum (fun u hu => hc.partitioner g' u (by rw [r1]; exact hu))
      (fun b => by
        unfold blockWeights
        rw [← Metrics.sum_range_list, r1]
        apply Finset.sum_congr rfl
        intro u hu
        rw [(r4 u (by rw [r1]; exact mem_range.1 hu)).2.2])
    obtain ⟨a, ha⟩ : ∃ a, a = assign s1.g.n s1.g.countIsolated c.k c.mx s1.g.nodeWeight (c.partitioner g')
      (blockWeights g' (c.partitioner g')) c.r.garbage := ⟨_, rfl⟩
    rw [← ha] at a1 a2
    obtain ⟨f1, f2⟩ := finish_spec h2 hc.run hwf hsymm a.part c.out
    refine ⟨s1, (finish c.r s1 a.part c.out).1, (finish c.r s1 a.part c.out).2, ?_, ⟨π, h2, fun h => by rw [h3] at h; exact nomatch h⟩,
      fun u hu => ?_, f2, π, g', ?_, fun u hu hlt => ?_⟩
    · simp only [Option.map_some, if_pos hs]
      rw [← hg', hint]
      simp only []
      rw [← ha]
    · rw [f1 u hu]
      exact a1 _ (by rw [hn]; exact h2.iso.lt u hu)
    · refine ⟨fun x hx => h2.iso.surj (by omega), h2.iso.inj, fun u hu hge => ?_, fun u hu hlt => ?_, fun u hu hlt => ?_⟩
      · have hlt := h2.iso.lt u hu
        have := (hiso (π u) (by omega)).2 (by omega)
        rw [h2.degree hu] at this
        exact List.length_eq_zero_iff.1 this
      · rw [(r4 _ hlt).2.2]; exact h2.iso.w u hu
      · rw [(r4 _ hlt).1]; exact h2.iso.adj u hu
    · rw [f1 u hu]
      exact a2 _ (by rw [← r1]; exact hlt)
  · obtain ⟨f1, f2⟩ := finish_spec h2 hc.run hwf hsymm (c.partitioner s1.g) c.out
    refine ⟨s1, (finish c.r s1 (c.partitioner s1.g) c.out).1, (finish c.r s1 (c.partitioner s1.g) c.out).2, ?_,
      ⟨π, h2, fun h => by rw [h3] at h; exact nomatch h⟩, fun u hu => ?_, f2, π, s1.g, ?_, fun u hu _ => f1 u hu⟩
    · simp only [Option.map_some, if_neg hs]
    · rw [f1 u hu]
      exact hc.partitioner _ _ (by rw [h2.n]; exact h2.iso.lt u hu)
    · exact ⟨fun x hx => h2.iso.surj (by rw [← h2.n]; exact hx), h2.iso.inj,
        fun u hu hge => absurd (by rw [h2.n]; exact h2.iso.lt u hu) hge, fun u hu _ => h2.iso.w u hu,
        fun u hu _ => h2.iso.adj u hu⟩

/-- Calls one after the other: the results, and the state at the end. -/
def runCalls (lowest : Int) : List Call → State → Option (List ((Nat → Nat) × Option Int) × State)
  | [], s => some ([], s)
  | c :: cs, s => (c.run lowest s).bind fun x => (runCalls lowest cs x.1).map fun y => (x.2 :: y.1, y.2)

theorem runCalls_spec {g0 : Graph} {nwSize ewSize : Nat} {lowest : Int} (hlow : lowest ≤ 1) (hwidth : g0.n < 2 ^ 32)
    (hwf : g0.WF) (hsymm : g0.Symm) : ∀ (cs : List Call) (s : State), (∀ c ∈ cs, c.Ok g0 nwSize ewSize) →
    (∃ π, Repr g0 nwSize ewSize π s ∧ (s.rearranged = false → s.perm = none)) →
    ∃ rs s', runCalls lowest cs s = some (rs, s') ∧ List.Forall₂ (fun c x => Right g0 c x.1 x.2) cs rs
  | [], s, _, _ => ⟨[], s, rfl, .nil⟩
  | c :: cs, s, hcs, h => by
    obtain ⟨s1, out, value, h1, h2, h3⟩ := compute_spec h (hcs c List.mem_cons_self) hlow hwidth hwf hsymm
    obtain ⟨rs, s', h4, h5⟩ := runCalls_spec hlow hwidth hwf hsymm cs s1 (fun c hc => hcs c (List.mem_cons_of_mem _ hc)) h2
    refine ⟨(out, value) :: rs, s', ?_, .cons h3 h5⟩
    rw [runCalls, h1]
    simp only [Option.bind_some, h4, Option.map_some]

/-- **C25.**  For every valid input graph, whether it was copied or borrowed, and every sequence of calls of
`compute_partition` (with any options, numbers of blocks, limits, outcomes of the partitioner and schedules), every
call succeeds, and its result is a partition of the caller's nodes as computed by the partitioner, together with its cut
in the caller's graph. -/
theorem C25_reported_in_callers_ids (lowest : Int) (hlow : lowest ≤ 1) (n : Nat) (xadj adjncy : Nat → Nat)
    (vwgt adjwgt : Arr Int) (hv : ValidInput n xadj adjncy vwgt adjwgt) (sc : Scheds)
    (hs1 : sc.nw.covers 0 vwgt.size) (hs2 : sc.ew.covers 0 adjwgt.size) (borrow : Bool) (cs : List Call)
    (hcs : ∀ c ∈ cs, c.Ok (callerGraph n xadj adjncy vwgt adjwgt) vwgt.size adjwgt.size) :
    ∃ s rs s', (if borrow then borrowGraph lowest n xadj adjncy vwgt adjwgt sc
        else copyGraph lowest n xadj adjncy vwgt adjwgt sc) = some s ∧
      runCalls lowest cs s = some (rs, s') ∧
      List.Forall₂ (fun c x => Right (callerGraph n xadj adjncy vwgt adjwgt) c x.1 x.2) cs rs := by
  have key : ∃ s, (if borrow then borrowGraph lowest n xadj adjncy vwgt adjwgt sc
        else copyGraph lowest n xadj adjncy vwgt adjwgt sc) = some s ∧
      Repr (callerGraph n xadj adjncy vwgt adjwgt) vwgt.size adjwgt.size id s ∧ s.perm = none := by
    cases borrow with
    | false =>
      simp only [Bool.false_eq_true, if_false]
      unfold copyGraph
      cases hb : build lowest (.owned xadj (n + 1)) (.owned adjncy (xadj n)) (.owned vwgt.data vwgt.size)
        (.owned adjwgt.data adjwgt.size) false sc with
      | none =>
        unfold build initDegreeBuckets at hb
        exact nomatch hb
      | some g => exact ⟨_, rfl, build_repr hb hv ⟨rfl, rfl⟩ ⟨rfl, rfl⟩ ⟨rfl, rfl⟩ ⟨rfl, rfl⟩ hs1 hs2, rfl⟩
    | true =>
      simp only [if_true]
      unfold borrowGraph
      cases hb : build lowest (.span xadj (n + 1)) (.span adjncy (xadj n))
        (if vwgt.size = 0 then .owned vwgt.data 0 else .span vwgt.data vwgt.size)
        (if adjwgt.size = 0 then .owned adjwgt.data 0 else .span adjwgt.data adjwgt.size) false sc with
      | none =>
        unfold build initDegreeBuckets at hb
        exact nomatch hb
      | some g =>
        refine ⟨_, rfl, build_repr hb hv ⟨rfl, rfl⟩ ⟨rfl, rfl⟩ ?_ ?_ hs1 hs2, rfl⟩
        · split
          · rename_i h0; exact ⟨rfl, h0.symm⟩
          · exact ⟨rfl, rfl⟩
        · split
          · rename_i h0; exact ⟨rfl, h0.symm⟩
          · exact ⟨rfl, rfl⟩
  obtain ⟨s, h1, h2, h3⟩ := key
  obtain ⟨rs, s', h4, h5⟩ := runCalls_spec hlow hv.width hv.wf hv.symm cs s hcs ⟨id, h2, fun _ => h3⟩
  exact ⟨s, rs, s', h1, h4, h5⟩

/-! ## Non-vacuity: nodes 0 - 1, 2 - 3 - 4 connected, node 1 replaced by an isolated node in between -/

/-- Edges 0-2 (weight 5) and 2-3 (weight 7); node 1 is isolated. -/
def exXadj : Nat → Nat := fun u => [0, 1, 1, 3, 4].getD u 4
def exAdjncy : Nat → Nat := fun e => [2, 0, 3, 2].getD e 0
def exAdjwgt : Arr Int := .owned (fun e => [5, 5, 7, 7].getD e 0) 4
def exVwgt : Arr Int := .owned (fun _ => 0) 0

def exRun : Run where
  maxConc := 2
  calls1 := deterministicForCalls 2 0 4
  calls2 := deterministicForCalls 2 0 4
  order0 := [0, 1, 2, 3]
  order1 := [0, 1, 2, 3]
  order2 := [0, 1, 2, 3]
  garbage := fun _ => 77
  garbageE := fun _ => (77, 77)
  garbageW := fun _ => 77
  scheds := ⟨.body [(0, 0)], .body [(0, 4)], .body [(0, 4)]⟩
  outOrder := [3, 1, 0, 2]
  threads := 1
  chunks := [(0, [0, 1, 2, 3])]

/-- Blocks by parity of the internal node ID. -/
def exCall : Call where
  o := ⟨true, false⟩
  newEdges := fun g e => (g.edges.data e, if g.isEdgeWeighted then g.ew.data e else 1)
  k := 2
  mx := fun _ => 2
  partitioner := fun _ u => u % 2
  r := exRun
  out := fun _ => 99

example : ValidInput 4 exXadj exAdjncy exVwgt exAdjwgt := by
  refine ⟨rfl, by decide, ⟨Or.inl rfl, fun i hi => absurd hi (Nat.not_lt_zero i)⟩, ⟨Or.inr rfl, by decide⟩, ?_, ?_, by decide⟩
  · show ∀ u, u < 4 → ∀ e ∈ _, _ < 4
    decide
  · intro u v c hu hv
    have hu : u < 4 := hu
    have hv : v < 4 := hv
    have hu : u = 0 ∨ u = 1 ∨ u = 2 ∨ u = 3 := by omega
    have hv : v = 0 ∨ v = 1 ∨ v = 2 ∨ v = 3 := by omega
    have e0 : (callerGraph 4 exXadj exAdjncy exVwgt exAdjwgt).adj 0 = [(2, 5)] := by decide
    have e1 : (callerGraph 4 exXadj exAdjncy exVwgt exAdjwgt).adj 1 = [] := by decide
    have e2 : (callerGraph 4 exXadj exAdjncy exVwgt exAdjwgt).adj 2 = [(0, 5), (3, 7)] := by decide
    have e3 : (callerGraph 4 exXadj exAdjncy exVwgt exAdjwgt).adj 3 = [(2, 7)] := by decide
    rcases hu with rfl | rfl | rfl | rfl <;> rcases hv with rfl | rfl | rfl | rfl <;>
      simp only [e0, e1, e2, e3] <;> simp [List.count_cons]

example : exCall.Ok (callerGraph 4 exXadj exAdjncy exVwgt exAdjwgt) 0 4 := by
  refine ⟨⟨by decide, List.Perm.refl _, List.Perm.refl _, by decide, by decide, by decide, ?_, ?_, by decide, by decide,
    by decide⟩, fun g _ u _ => List.Perm.refl _, by decide, fun g u _ => Nat.mod_lt _ (by decide), fun _ => ⟨by decide, ?_⟩⟩
  · rfl
  · rfl
  · intro u hu
    have hu : u < 4 := hu
    have : u = 0 ∨ u = 1 ∨ u = 2 ∨ u = 3 := by omega
    rcases this with rfl | rfl | rfl | rfl <;> decide

/-- Internally the nodes are ordered 0, 3, 2, 1 (the isolated node last); the output and the cut are in terms of the
caller's nodes, also in the second call. -/
example : ((copyGraph (-2147483648) 4 exXadj exAdjncy exVwgt exAdjwgt exRun.scheds).bind fun s =>
    (runCalls (-2147483648) [exCall, exCall] s).map fun x => x.1.map fun y => ((List.range 4).map y.1, y.2)) =
      some [([0, 1, 0, 1], some 7), ([0, 1, 0, 1], some 7)] := by
  decide +kernel

end Verif.Facade
