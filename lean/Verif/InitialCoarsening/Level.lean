import Verif.InitialCoarsening.Edges
import Verif.InitialFM.Lemmas

/-!
# One level of the hierarchy
-/

namespace Verif.InitialCoarsening
open Verif.Maps (FastResetArray)
open Finset
open Verif.Contraction

theorem bucketOrder_perm {first size : Nat} {chunks : List Nat} {perm : Nat → List Nat}
    (hc : chunks.Perm (List.range (size / chunkSize))) (hp : ∀ j, (perm j).Perm (List.range chunkSize)) :
    (bucketOrder first size chunks perm).Perm ((List.range size).map (first + ·)) := by
  unfold bucketOrder
  have h1 : (chunks.zipIdx.flatMap fun (i, j) => (perm j).map fun x => first + i * chunkSize + x).Perm
      ((List.range (size / chunkSize * chunkSize)).map (first + ·)) := by
    refine (InitialFM.perm_flatMap (g := fun a => (List.range chunkSize).map fun x => first + a.1 * chunkSize + x)
      fun a _ => (hp a.2).map _).trans ?_
    have : (chunks.zipIdx.flatMap fun a => (List.range chunkSize).map fun x => first + a.1 * chunkSize + x) =
        (chunks.flatMap fun i => (List.range chunkSize).map fun x => i * chunkSize + x).map (first + ·) := by
      conv_rhs => rw [← List.zipIdx_map_fst 0 chunks, List.flatMap_map]
      rw [List.map_flatMap]
      simp only [List.map_map, Function.comp_def, Nat.add_assoc]
    rw [this, ← InitialFM.range_chunks]
    exact (hc.flatMap_right _).map _
  have h2 : ((List.range (size % chunkSize)).map fun x => first + size - size % chunkSize + x) =
      ((List.range (size % chunkSize)).map (size / chunkSize * chunkSize + ·)).map (first + ·) := by
    rw [List.map_map]
    apply List.map_congr_left
    intro x _
    have := Nat.div_add_mod size chunkSize
    have := Nat.mul_comm chunkSize (size / chunkSize)
    simp only [Function.comp_apply]
    omega
  have h3 : List.range size = List.range (size / chunkSize * chunkSize) ++
      (List.range (size % chunkSize)).map (size / chunkSize * chunkSize + ·) := by
    rw [← List.range_add]
    congr 1
    have := Nat.div_add_mod size chunkSize
    have := Nat.mul_comm chunkSize (size / chunkSize)
    omega
  rw [h2, h3, List.map_append]
  exact h1.append_right _

theorem lpOrder_perm {n buckets : Nat} {start : Nat → Nat} (hb : BucketsOk n buckets start) {o : Oracle}
    (ho : o.Ok buckets start) :
    (lpOrder buckets start o.chunks o.perm).Perm ((List.range (start buckets - start 0)).map (start 0 + ·)) := by
  have h1 : (lpOrder buckets start o.chunks o.perm).Perm
      ((List.range buckets).flatMap fun b => (List.range (start (b + 1) - start b)).map (start b + ·)) :=
    InitialFM.perm_flatMap fun b hb => bucketOrder_perm (ho.chunks b (List.mem_range.1 hb)) (ho.perm b)
  refine h1.trans (List.Perm.of_eq ?_)
  have key : ∀ k, k ≤ buckets → start 0 ≤ start k ∧
      ((List.range k).flatMap fun b => (List.range (start (b + 1) - start b)).map (start b + ·)) =
        (List.range (start k - start 0)).map (start 0 + ·) := by
    intro k
    induction k with
    | zero => intro _; simp
    | succ k ih =>
      intro hk
      obtain ⟨h2, h3⟩ := ih (by omega)
      have h4 := hb.mono k (by omega)
      refine ⟨by omega, ?_⟩
      rw [List.range_succ, List.flatMap_append, h3]
      simp only [List.flatMap_cons, List.flatMap_nil, List.append_nil]
      have h5 : start (k + 1) - start 0 = (start k - start 0) + (start (k + 1) - start k) := by omega
      rw [h5, List.range_add, List.map_append]
      congr 1
      rw [List.map_map]
      apply List.map_congr_left
      intro x _
      simp only [Function.comp_apply]
      omega
  exact (key buckets (le_refl _)).2

theorem lpOrder_ok {n buckets : Nat} {start : Nat → Nat} (hb : BucketsOk n buckets start) {o : Oracle}
    (ho : o.Ok buckets start) :
    (lpOrder buckets start o.chunks o.perm).Nodup ∧ ∀ u ∈ lpOrder buckets start o.chunks o.perm, u < n := by
  have h := lpOrder_perm hb ho
  constructor
  · rw [h.nodup_iff]
    exact List.Nodup.map (fun a b hab => by simpa using hab) List.nodup_range
  · intro u hu
    rw [h.mem_iff] at hu
    obtain ⟨x, hx, rfl⟩ := List.mem_map.1 hu
    have := List.mem_range.1 hx
    have := hb.le buckets (le_refl _)
    omega

theorem connected_symm {g : Graph} (hg : g.WF) (hs : g.Symm) {f : Nat → Nat} {u v : Nat} (hu : u < g.n)
    (h : Connected g f u v) : v < g.n ∧ f u = f v ∧ Connected g f v u := by
  induction h with
  | refl => exact ⟨hu, rfl, .refl⟩
  | tail _ hbc ih =>
    rename_i b c _
    obtain ⟨hb, hf, hp⟩ := ih
    obtain ⟨⟨e, he, hec⟩, hfe⟩ := hbc
    have hc : c < g.n := hec ▸ hg b hb e he
    have : (b, e.2) ∈ g.adj c := mem_of_count_symm hs hb hc (by rw [← hec]; exact he)
    exact ⟨hc, hf.trans hfe, hp.head ⟨⟨_, this, rfl⟩, hfe.symm⟩⟩

/-- `contract_current_clustering` yields a level of the hierarchy and a clustering of the coarse graph. -/
theorem contract_ok {bits : Nat} {max M : Int} {coin : Nat → Nat → Bool} {g : Graph} (hg : Valid bits g) {cap : Nat}
    (hcap : g.n ≤ cap) (m : Mem) {s : St} (hvc : VC g.n g.w (Adj g) M s.cl) (hr : s.rating = FastResetArray.new cap) :
    ∃ h mapping s', contract? bits max coin g m s (FastResetArray.new cap) = some (h, mapping, s', FastResetArray.new cap) ∧
      Level M g mapping h ∧ Valid bits h ∧ VC h.n h.w (Adj h) max s'.cl ∧ s'.rating = FastResetArray.new cap ∧
      h.n = g.n - s.cl.moves := by
  have hnum := numbered hvc m.cw m.mapping
  have hmi := mapLoop_inv s.cl m.cw m.mapping g.n
  unfold contract?
  simp only
  set cn := g.n - s.cl.moves with hcn
  generalize mapLoop g.n s.cl m.cw m.mapping = a at *
  have hcw : ∀ c, c < cn → a.cw c = ∑ u ∈ range g.n, if a.mapping u = c then g.w u else 0 := by
    intro c hc
    obtain ⟨u, hu, rfl⟩ := hnum.onto c hc
    rw [hnum.cw u hu, hvc.weight _ (hvc.lt u hu) (hvc.idem u hu)]
    apply Finset.sum_congr rfl
    intro v hv
    have := hnum.same v u (mem_range.1 hv) hu
    simp only [this]
  have hsmall : Small bits cn a.cw := by
    refine ⟨hg.small.pos, ?_, ?_⟩
    · intro c hc
      rw [hcw c hc]
      exact (sum_if_le hg.small.nonneg _).1
    · rw [Finset.sum_congr rfl fun c hc => hcw c (mem_range.1 hc), ← sum_fibre g.n cn a.mapping hnum.lt g.w]
      exact hg.small.total
  have hplace := place_eq hnum.lt (Nat.sub_le _ _) hmi.sizes m.nodes
  rw [hplace]
  have hcn0 : 0 < cn := Nat.lt_of_le_of_lt (Nat.zero_le _) (hnum.lt 0 hg.nonempty)
  have hcap' : cn ≤ cap := by omega
  have h0 : At max g cn cap a.mapping a.cw 0
      { s := { s with cl := reset bits cn a.cw s.cl }, coll := FastResetArray.new cap, cu := 0, nodes := [0], edges := [] } :=
    ⟨rfl, rfl, hr, reset_vc hsmall _ _ _, fun d _ hd => if_pos hd, fun _ h => if_pos h,
      ⟨[], rfl, rfl, rfl, fun i hi => absurd hi (Nat.not_lt_zero _)⟩⟩
  obtain ⟨s0, s1, h1, h2, h3⟩ := edges_ok (coin := coin) hsmall hg.wf hg.pos hnum.lt hcap' hnum.onto h0 (cn - 1) (by omega)
  obtain ⟨s2, h4, h5⟩ := flush_ok (coin := coin) hsmall hg.wf hnum.lt (by omega) h2 h3
  have hcn1 : cn - 1 + 1 = cn := by omega
  rw [hcn1] at h1 h5
  obtain ⟨cols, e1, e2, e3, e4⟩ := h5.rows
  have hadj : ∀ c (hc : c < cn), (csr cn a.cw s2.nodes s2.edges).adj c = cols[c]'(by omega) := by
    intro c hc
    show (s2.edges.drop (s2.nodes.getD c 0)).take (s2.nodes.getD (c + 1) 0 - s2.nodes.getD c 0) = _
    rw [e2, e3]
    exact slice_eq cols (by omega)
  have hpre : Pre g cn a.mapping (members g.n a.mapping) :=
    ⟨hg.wf, hnum.lt, hnum.onto, fun c _ => .refl _⟩
  have hcont : Contracted g a.mapping (csr cn a.cw s2.nodes s2.edges) := by
    refine contracted_of_rows hpre (col := fun c => cols.getD c []) ?_ id (fun c hc => hc) (fun c d _ _ h => h)
      (fun d hd => ⟨d, hd, rfl⟩) rfl ?_ ?_
    · intro c hc
      rw [List.getD_eq_getElem?_getD, List.getElem?_eq_getElem (by omega), Option.getD_some]
      exact e4 c (by omega)
    · intro c hc
      rw [bucketWeight_eq (bucket := members g.n a.mapping c) (.refl _)]
      exact hcw c hc
    · intro c hc
      rw [List.getD_eq_getElem?_getD, List.getElem?_eq_getElem (by omega), Option.getD_some]
      simp only [id_eq]
      rw [hadj c hc]
      simp
  have hpath : ∀ u, u < g.n → Connected g a.mapping u (s.cl.leader u) := by
    intro u hu
    have key : ∀ {x y : Nat}, Relation.ReflTransGen (fun a b => Adj g a b ∧ s.cl.leader a = s.cl.leader b) x y → x < g.n →
        y < g.n ∧ Connected g a.mapping x y := by
      intro x y hxy hx
      induction hxy with
      | refl => exact ⟨hx, .refl⟩
      | tail _ hbc ih =>
        obtain ⟨hb, hp⟩ := ih
        rename_i b c _
        have hc : c < g.n := by
          obtain ⟨⟨e, he, rfl⟩, _⟩ := hbc
          exact hg.wf b hb e he
        exact ⟨hc, hp.tail ⟨hbc.1, (hnum.same b c hb hc).2 hbc.2⟩⟩
    exact (key (hvc.conn u hu) hu).2
  refine ⟨csr cn a.cw s2.nodes s2.edges, a.mapping, s2.s, ?_, ⟨hcont, ?_, ?_⟩, ⟨hcn0, hcont.wf, hcont.symm hg.wf hg.symm, ?_, hsmall⟩,
    ?_, h5.rating, rfl⟩
  · rw [h1]
    simp only [Option.bind_eq_bind, Option.bind_some, h4, h5.coll]
  · intro u v hu hv huv hM
    have hw : (csr cn a.cw s2.nodes s2.edges).w (a.mapping u) = s.cl.weight (s.cl.leader u) := hnum.cw u hu
    rw [hw] at hM
    have hnl : ∀ x, x < g.n → s.cl.leader x = s.cl.leader u → x = s.cl.leader u := by
      intro x hx he
      by_contra hne
      have h6 := hvc.lead x hx (by rw [he]; exact Ne.symm hne)
      have h7 := hvc.bound _ (hvc.lt x hx) h6
      rw [he] at h7
      omega
    exact (hnl u hu rfl).trans (hnl v hv ((hnum.same u v hu hv).1 huv).symm).symm
  · intro u v hu hv huv
    have h6 := hpath u hu
    rw [(hnum.same u v hu hv).1 huv] at h6
    exact h6.trans (connected_symm hg.wf hg.symm hv (hpath v hv)).2.2
  · intro c hc e he
    replace hc : c < cn := hc
    rw [hadj c hc] at he
    obtain ⟨h6, h7⟩ := ((e4 c (by omega)).2 e.1 e.2).1 he
    rw [h7]
    refine total_pos ?_ h6
    intro x hx
    obtain ⟨u, hu, e', he', _, rfl⟩ := mem_inputs.1 hx
    exact hg.pos u (List.mem_range.1 (List.mem_of_mem_filter hu)) e' he'
  · -- the clustering of the coarse graph
    have hiff : ∀ c d, c < cn → (CAdj g a.mapping c d ↔ Adj (csr cn a.cw s2.nodes s2.edges) c d) := by
      intro c d hc
      unfold Adj
      rw [hadj c hc]
      constructor
      · intro h
        exact ⟨(d, _), ((e4 c (by omega)).2 d _).2 ⟨h, rfl⟩, rfl⟩
      · rintro ⟨e, he, rfl⟩
        exact (((e4 c (by omega)).2 e.1 e.2).1 he).1
    have hlt : ∀ c d, CAdj g a.mapping c d → d < cn := by
      intro c d h
      obtain ⟨x, hx, rfl⟩ := List.mem_map.1 h
      exact ops_adj hg.wf hnum.lt hx
    refine { h5.vc with conn := ?_ }
    intro c hc
    have key : ∀ {x y : Nat}, Relation.ReflTransGen
        (fun c d => CAdj g a.mapping c d ∧ s2.s.cl.leader c = s2.s.cl.leader d) x y → x < cn →
        y < cn ∧ Relation.ReflTransGen (fun c d => Adj (csr cn a.cw s2.nodes s2.edges) c d ∧
          s2.s.cl.leader c = s2.s.cl.leader d) x y := by
      intro x y hxy hx
      induction hxy with
      | refl => exact ⟨hx, .refl⟩
      | tail _ hbc ih =>
        obtain ⟨hb, hp⟩ := ih
        exact ⟨hlt _ _ hbc.1, hp.tail ⟨(hiff _ _ hb).1 hbc.1, hbc.2⟩⟩
    exact (key (h5.vc.conn c hc) hc).2

end Verif.InitialCoarsening
