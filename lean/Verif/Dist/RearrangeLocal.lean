import Verif.Dist.RearrangeSpec
import Verif.Dist.CommProps
import Verif.Permute.Props

/-!
# The permuted arrays of one process
-/

namespace Verif.Dist
open Verif.Math Verif.Permute

theorem mapM_getD {α β : Type} {f : α → Option β} (d : β) : ∀ {l : List α} {r : List β}, l.mapM f = some r → r = l.map fun x => (f x).getD d
  | [], r, h => by
    have : r = [] := by simpa using h.symm
    exact this
  | a :: l, r, h => by
    rw [List.mapM_cons] at h
    cases ha : f a with
    | none => rw [ha] at h; cases h
    | some b =>
      rw [ha] at h
      change Option.bind (l.mapM f) _ = _ at h
      cases hl : l.mapM f with
      | none => rw [hl] at h; cases h
      | some r' =>
        rw [hl] at h
        have hr : r = b :: r' := by
          injection h with h
          exact h.symm
        rw [hr, List.map_cons, ha, mapM_getD d hl]
        rfl

/-- A bijection permutes the numbers. -/
theorem perm_of_inj {n : Nat} {f : Nat → Nat} (hf : ∀ u, u < n → f u < n) (hi : ∀ u v, u < n → v < n → f u = f v → u = v) :
    ((List.range n).map f).Perm (List.range n) := by
  refine (List.perm_ext_iff_of_nodup ?_ List.nodup_range).2 fun y => ?_
  · exact nodup_map_on List.nodup_range fun a ha b hb h => hi a b (List.mem_range.1 ha) (List.mem_range.1 hb) h
  · rw [List.mem_map, List.mem_range]
    constructor
    · rintro ⟨u, hu, rfl⟩
      exact hf u (List.mem_range.1 hu)
    · intro hy
      obtain ⟨u, hu, h⟩ := surj_of_inj hf hi y hy
      exact ⟨u, List.mem_range.2 hu, h⟩

theorem telescope {f : Nat → Nat} : ∀ {n : Nat}, (∀ u, u < n → f u ≤ f (u + 1)) → f 0 + ((List.range n).map fun u => f (u + 1) - f u).sum = f n
  | 0, _ => rfl
  | n + 1, h => by
    rw [List.range_succ, List.map_append, List.sum_append, ← Nat.add_assoc, telescope fun u hu => h u (by omega)]
    have := h n (by omega)
    simp only [List.map_cons, List.map_nil, List.sum_cons, List.sum_nil]
    omega

theorem row_of {f : Nat → Nat} (h0 : f 0 = 0) {e : Nat} : ∀ {n : Nat}, e < f n → ∃ u, u < n ∧ f u ≤ e ∧ e < f (u + 1)
  | 0, h => by omega
  | n + 1, h => by
    by_cases hn : e < f n
    · obtain ⟨u, h1, h2⟩ := row_of h0 hn
      exact ⟨u, by omega, h2⟩
    · exact ⟨n, by omega, by omega, h⟩

/-- The global ID of a local node. -/
def idOf (g : DGraph) (l : Nat) : Nat := (g.localToGlobal? l).getD 0

theorem idOf_of {g : DGraph} {l v : Nat} (h : g.localToGlobal? l = some v) : idOf g l = v := by unfold idOf; rw [h]; rfl

section
variable {dist : List Nat} {p : Nat} {i : Input} {g : DGraph}

theorem csr_neighbours (V : Valid dist p i) (R : Represents dist p i g) (hn : g.nodes = i.xadj) (he : g.edges.length = i.adjncy.length)
    (hw : g.edgeWeights = i.adjwgt) {u : Nat} (hu : u < localN dist p) :
    i.neighbours u = ((csr g).graph.adj u).map (fun x => (idOf g x.1, if i.adjwgt = [] then 1 else x.2)) ∧
      ∀ x, x ∈ (csr g).graph.adj u → ∃ v, g.localToGlobal? x.1 = some v := by
  obtain ⟨l, h1, h2⟩ := R.neighbours u hu
  have hx1 : i.xadj[u]? = some (i.xadj.getD u 0) := getD_some (by rw [V.xadj_length]; omega)
  have hx2 : i.xadj[u + 1]? = some (i.xadj.getD (u + 1) 0) := getD_some (by rw [V.xadj_length]; omega)
  have hxm : i.xadj.getD (u + 1) 0 ≤ i.adjncy.length := by
    rw [← V.xadj_last]
    exact V.xadj_mono (by omega) (Nat.le_refl _)
  have hl : g.adjacent? u = some (((csr g).graph.adj u).map fun x => (x.1, if i.adjwgt = [] then 1 else x.2)) := by
    unfold DGraph.adjacent?
    rw [hn, hx1, hx2]
    show (List.range' _ _).mapM _ = some (((List.range' (g.nodes.getD u 0) (g.nodes.getD (u + 1) 0 - g.nodes.getD u 0)).map _).map _)
    rw [hn, List.map_map]
    refine mapM_some fun e he' => ?_
    rw [List.mem_range'_1] at he'
    have hel : e < g.edges.length := by omega
    have hwt : g.edgeWeight? e = some (if i.adjwgt = [] then 1 else i.adjwgt.getD e 0) := by
      unfold DGraph.edgeWeight?
      rw [hw]
      by_cases h0 : i.adjwgt = []
      · rw [if_pos h0, if_pos h0]
      · rw [if_neg h0, if_neg h0]
        exact getDI_some (by rw [V.adjwgt.resolve_left h0]; omega)
    rw [hwt, getD_some hel]
    show some _ = some _
    rw [← hw]
    rfl
  rw [hl] at h1
  have h1 := (Option.some.inj h1).symm
  subst h1
  constructor
  · have h3 := mapM_getD (0, 0) h2
    rw [h3, List.map_map]
    refine List.map_congr_left fun x hx => ?_
    obtain ⟨y, _, hy⟩ := (mapM_mem h2).1 (x.1, if i.adjwgt = [] then 1 else x.2) (List.mem_map.2 ⟨x, hx, rfl⟩)
    dsimp only [Function.comp] at hy ⊢
    obtain ⟨v, hv1, hv2⟩ := Option.map_eq_some_iff.1 hy
    rw [hv1, idOf_of hv1]
    rfl
  · intro x hx
    obtain ⟨y, _, hy⟩ := (mapM_mem h2).1 (x.1, if i.adjwgt = [] then 1 else x.2) (List.mem_map.2 ⟨x, hx, rfl⟩)
    obtain ⟨v, hv1, hv2⟩ := Option.map_eq_some_iff.1 hy
    exact ⟨v, hv1⟩

end

/-- What C22 says about the permuted arrays. -/
structure PermutedRows (n m : Nat) (perm : NodePermutations) (c c' : Csr) : Prop where
  zero : c'.nodes 0 = 0
  mono : ∀ u, u < n → c'.nodes u ≤ c'.nodes (u + 1)
  last : c'.nodes n = m
  weight : ∀ u, u < n → c'.w (perm.oldToNew u) = c.w u
  adj : ∀ u, u < n → c'.graph.adj (perm.oldToNew u) =
    ((c.graph.adj u).map fun e => (if e.1 < n then perm.oldToNew e.1 else e.1, e.2)).reverse

theorem permuted_rows {g : DGraph} {dist : List Nat} {p : Nat} {i : Input} (V : Valid dist p i) (R : Represents dist p i g)
    (hn : g.nodes = i.xadj) (perm : NodePermutations)
    (hp : ∀ u, u < localN dist p → perm.oldToNew u < localN dist p ∧ perm.newToOld (perm.oldToNew u) = u) (r : PermuteRun)
    (h1 : r.order1.Perm (List.range (localN dist p))) (h2 : r.order2.Perm (List.range (localN dist p))) :
    PermutedRows (localN dist p) i.adjncy.length perm (csr g)
      (buildPermuted true (csr g) perm r.order1 r.order2 r.garbage r.garbageE r.garbageW) := by
  have hcn : (csr g).n = localN dist p := R.n_eq
  obtain ⟨_, a2, a3, a4, a5⟩ := C22_permuted_graph true (csr g) perm r.order1 r.order2 r.garbage r.garbageE r.garbageW
    (by rw [hcn]; exact hp) (by rw [hcn]; exact h1) (by rw [hcn]; exact h2)
  rw [hcn] at a2 a3 a5
  set c' := buildPermuted true (csr g) perm r.order1 r.order2 r.garbage r.garbageE r.garbageW with hc'
  have hadj : ∀ u, u < localN dist p → c'.graph.adj (perm.oldToNew u) =
      (((csr g).graph.adj u).map fun e => (if e.1 < localN dist p then perm.oldToNew e.1 else e.1, e.2)).reverse := by
    intro u hu
    rw [a3 u hu]
    congr 1
    refine List.map_congr_left fun e _ => ?_
    simp
  refine ⟨a4, a5, ?_, a2, hadj⟩
  have hlen : ∀ (c : Csr) u, (c.graph.adj u).length = c.nodes (u + 1) - c.nodes u := by
    intro c u
    show ((List.range' _ _).map _).length = _
    simp
  have t1 := telescope a5
  have t2 := telescope (f := (csr g).nodes) (n := localN dist p) fun u hu => by
    show g.nodes.getD u 0 ≤ g.nodes.getD (u + 1) 0
    rw [hn]
    exact V.xadj_sorted u hu
  have e1 : (csr g).nodes 0 = 0 := by
    show g.nodes.getD 0 0 = 0
    rw [hn]; exact V.xadj_zero
  have e2 : (csr g).nodes (localN dist p) = i.adjncy.length := by
    show g.nodes.getD _ 0 = _
    rw [hn]; exact V.xadj_last
  rw [a4, Nat.zero_add] at t1
  rw [e1, Nat.zero_add, e2] at t2
  have e3 : ((List.range (localN dist p)).map fun u => c'.nodes (u + 1) - c'.nodes u).sum =
      ((List.range (localN dist p)).map fun u => (csr g).nodes (u + 1) - (csr g).nodes u).sum := by
    have hq := perm_of_inj (fun u hu => (hp u hu).1) fun u v hu hv h => by
      rw [← (hp u hu).2, ← (hp v hv).2, h]
    have := (hq.map fun u => c'.nodes (u + 1) - c'.nodes u).sum_eq
    rw [← this, List.map_map]
    congr 1
    refine List.map_congr_left fun u hu => ?_
    rw [List.mem_range] at hu
    show c'.nodes (perm.oldToNew u + 1) - c'.nodes (perm.oldToNew u) = _
    rw [← hlen, ← hlen, hadj u hu]
    simp
  rw [← t1, e3, t2]

end Verif.Dist
