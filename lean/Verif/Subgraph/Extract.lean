import Verif.Subgraph.Seq

/-! Lemmas: extraction of all blocks, and of one block at a time. -/

namespace Verif.Subgraph
open Verif.Contraction

theorem rows_view {g : LGraph} (hp : g.Positive) {part mapping : Nat → Nat} {b nb eb : Nat} {ns : List Nat}
    (hns : ∀ u ∈ ns, u < g.length) {mem : Cell → Int}
    (hst : Stored mem nb eb g.nodeWeighted g.edgeWeighted (rows g part mapping b ns)) :
    View.graph ⟨nb, ns.length, eb, (rows g part mapping b ns).m, g.nodeWeighted, g.edgeWeighted⟩ mem =
      rows g part mapping b ns := by
  have := view_stored hst (rows_positive hp hns) (rows_nw hp hns) (rows_ew hp hns)
  rw [length_rows] at this
  exact this

theorem rows_wf {g : LGraph} (hwf : g.WF) {part start : Nat → Nat} {s : BState} {ns : Nat → List Nat}
    (h : Bucketed g.length part start s ns) (b : Nat) : (rows g part s.mapping b (ns b)).WF := by
  intro r hr e he
  obtain ⟨u, hu, rfl⟩ := List.mem_map.1 hr
  obtain ⟨e', he', rfl⟩ := List.mem_map.1 he
  obtain ⟨h1, h2⟩ := List.mem_filter.1 he'
  have hul := List.mem_range.1 (List.mem_filter.1 ((h.perm b).mem_iff.1 hu)).1
  have hlt := hwf _ (mem_w hul) e' h1
  exact (rows_induced h b).lt e'.1 hlt (by simpa using h2)

structure AllOk (g : LGraph) (part pad : Nat → Nat) (k : Nat) (s : Sched) (mem : Mem) (slot0 : Nat → Nat) : Prop where
  induced : ∀ b, b < k → IsInduced g part b (extractAll g part pad k s mem slot0).mapping
    (((extractAll g part pad k s mem slot0).views b).graph (extractAll g part pad k s mem slot0).mem.cell)
  views : ∀ b, b < k → (extractAll g part pad k s mem slot0).views b =
    ⟨psum (fun b => pad b + bsize g.length part b) b, bsize g.length part b, psum (bedges g part) b, bedges g part b,
      g.nodeWeighted, g.edgeWeighted⟩
  m : ∀ b, b < k → (((extractAll g part pad k s mem slot0).views b).graph
    (extractAll g part pad k s mem slot0).mem.cell).m = bedges g part b
  positive : ∀ b, b < k → (((extractAll g part pad k s mem slot0).views b).graph
    (extractAll g part pad k s mem slot0).mem.cell).Positive
  wf : g.WF → ∀ b, b < k → (((extractAll g part pad k s mem slot0).views b).graph
    (extractAll g part pad k s mem slot0).mem.cell).WF
  held : ∀ b, b < k → Held (extractAll g part pad k s mem slot0).mem.cell ((extractAll g part pad k s mem slot0).views b)
    (((extractAll g part pad k s mem slot0).views b).graph (extractAll g part pad k s mem slot0).mem.cell)
  size : (extractAll g part pad k s mem slot0).mem.size = mem.size
  ok : mem.ok = true → g.length + psum pad k ≤ mem.size.nodes →
    (g.nodeWeighted = true → g.length + psum pad k ≤ mem.size.nw) → g.m ≤ mem.size.edges →
    (g.edgeWeighted = true → g.m ≤ mem.size.ew) → (extractAll g part pad k s mem slot0).mem.ok = true

theorem extractAll_ok {g : LGraph} (hp : g.Positive) {part pad : Nat → Nat} {k : Nat}
    (hpart : ∀ u, u < g.length → part u < k) (hpad : ∀ b, b < k → 1 ≤ pad b) {s : Sched}
    (hs : s.Ok g.length k part) (mem : Mem) (slot0 : Nat → Nat) : AllOk g part pad k s mem slot0 := by
  have hmn : (fun b => pad b + mergeCounts (countNodes part) s.threads b) =
      fun b => pad b + bsize g.length part b := by
    funext b; rw [merge_nodes hs.threads]
  have hme : (fun b => mergeCounts (countEdges g part) s.threads b) = bedges g part := by
    funext b; rw [merge_edges hs.threads]
  have hr : ∃ r, r = extractAll g part pad k s mem slot0 := ⟨_, rfl⟩
  obtain ⟨r, hr⟩ := hr
  have hr' := hr
  simp only [extractAll] at hr'
  rw [hmn, hme] at hr'
  generalize hns : offsets k (fun b => pad b + bsize g.length part b) = nstart at hr'
  generalize hes : offsets k (bedges g part) = estart at hr'
  have hn : ∀ b, b ≤ k → nstart b = psum (fun b => pad b + bsize g.length part b) b := by
    intro b hb; rw [← hns]; exact offsets_eq _ hb
  have he : ∀ b, b ≤ k → estart b = psum (bedges g part) b := by
    intro b hb; rw [← hes]; exact offsets_eq _ hb
  have hn1 : ∀ b, b < k → nstart (b + 1) = nstart b + (pad b + bsize g.length part b) := by
    intro b hb; rw [hn b (by omega), hn (b + 1) (by omega), psum_succ]
  have he1 : ∀ b, b < k → estart (b + 1) = estart b + bedges g part b := by
    intro b hb; rw [he b (by omega), he (b + 1) (by omega), psum_succ]
  have hsep : Sep g.length k part nstart := by
    intro b hb; rw [hn1 b hb]; omega
  have hbk := bucketed hsep hpart hs.steps hs.causal (fun i => (mem.cell (.node i)).toNat) (fun _ => 0) slot0
  generalize hbs : s.steps.foldl (bucketStep part nstart)
    ⟨fun _ => 0, fun i => (mem.cell (.node i)).toNat, fun _ => 0, slot0⟩ = bs at hr' hbk
  generalize hinb : inBlock part s.steps = ns at hbk
  have hlen : ∀ b, (ns b).length = bsize g.length part b := hbk.length
  have hrm : ∀ b, (rows g part bs.mapping b (ns b)).m = bedges g part b := fun b => rows_m (hbk.perm b)
  have hmem : ∀ b, ∀ u ∈ ns b, u < g.length := fun b u hu =>
    List.mem_range.1 (List.mem_filter.1 ((hbk.perm b).mem_iff.1 hu)).1
  generalize hm1 : Mem.mk (fun x => match x with | .node i => (bs.nodes i : Int) | c => mem.cell c) mem.size
    (mem.ok && (List.range g.length).all fun u => (Cell.node (nstart (part u) + bs.mapping u)).valid mem.size) =
    mem1 at hr'
  obtain ⟨c1, c2, c3, c4⟩ := construct_run (g := g) (part := part) (mapping := bs.mapping) (nstart := nstart)
    (estart := estart) (index := bs.index) (nwf := g.nodeWeighted) (ewf := g.edgeWeighted) (k := k) (ns := ns)
    hbk.index (fun b hb => by rw [hlen, hn1 b hb]; have := hpad b hb; omega)
    (fun b hb => by rw [hrm, he1 b hb]) s.construct (fun _ => 0) ⟨mem1, fun _ => 0, fun _ => 0⟩ hs.blocks
    (fun b hb => by
      constructor
      · simp
      · simp [first_zero]
      · intro i h; omega
      · intro i _ h
        rw [← hm1]
        show ((bs.nodes (nstart b + i) : Nat) : Int) = _
        rw [hbk.nodes b i h]
      · intro _ i h; omega
      · intro j h; simp [first_zero] at h)
    (fun b hb => by rw [hs.construct b hb, hlen]; show 0 + _ = _; rw [Nat.zero_add]; rfl)
  generalize hcs : s.construct.foldl (constructStep g part bs.mapping nstart estart bs.index g.nodeWeighted
    g.edgeWeighted) ⟨mem1, fun _ => 0, fun _ => 0⟩ = cs at *
  have hviews : ∀ b, b < k → r.views b = ⟨nstart b, bsize g.length part b, estart b, bedges g part b,
      g.nodeWeighted, g.edgeWeighted⟩ := by
    intro b hb
    rw [hr']
    show View.mk _ _ _ _ _ _ = _
    rw [hn1 b hb, he1 b hb]
    congr 1 <;> omega
  have hgraph : ∀ b, b < k → (r.views b).graph r.mem.cell = rows g part bs.mapping b (ns b) := by
    intro b hb
    have := rows_view hp (hmem b) (CInv.stored (c1 b hb))
    rw [hrm, hlen] at this
    rw [hviews b hb, hr']
    exact this
  have hmapping : r.mapping = bs.mapping := by rw [hr']
  constructor
  · intro b hb
    rw [← hr, hgraph b hb, hmapping]
    exact rows_induced hbk b
  · intro b hb
    rw [← hr, hviews b hb, hn b (by omega), he b (by omega)]
  · intro b hb
    rw [← hr, hgraph b hb, hrm]
  · intro b hb
    rw [← hr, hgraph b hb]
    exact rows_positive hp (hmem b)
  · intro hwf b hb
    rw [← hr, hgraph b hb]
    exact rows_wf hwf hbk b
  · intro b hb
    rw [← hr, hgraph b hb, hviews b hb]
    refine ⟨by rw [length_rows, hlen], by rw [hrm], ?_, rows_nw hp (hmem b), rows_ew hp (hmem b)⟩
    rw [hr']
    exact CInv.stored (c1 b hb)
  · rw [← hr, hr']
    show cs.mem.size = _
    rw [c2, ← hm1]
  · intro hok z1 z2 z3 z4
    rw [← hr, hr']
    show cs.mem.ok = true
    have htot : nstart k = g.length + psum pad k := by
      rw [hn k (Nat.le_refl _), psum_add, psum_bsize hpart]; omega
    have htote : estart k ≤ g.m := by
      rw [he k (Nat.le_refl _)]; exact psum_bedges g part k
    have hnb : ∀ b, b < k → nstart b + bsize g.length part b < g.length + psum pad k := by
      intro b hb
      have h1 : nstart (b + 1) ≤ nstart k := by
        rw [hn _ (by omega), hn _ (by omega)]; exact psum_mono _ (by omega)
      have h2 := hn1 b hb
      have h3 := hpad b hb
      omega
    have heb : ∀ b, b < k → estart b + bedges g part b ≤ g.m := by
      intro b hb
      have h1 : estart (b + 1) ≤ estart k := by
        rw [he _ (by omega), he _ (by omega)]; exact psum_mono _ (by omega)
      have h2 := he1 b hb
      omega
    apply c4
    · rw [← hm1]
      show (mem.ok && _) = true
      rw [hok, Bool.true_and, List.all_eq_true]
      intro u hu
      have hu' := List.mem_range.1 hu
      have hlt := (rows_induced hbk (part u)).lt u hu' rfl
      rw [length_rows, hlen] at hlt
      have := hnb _ (hpart u hu')
      simp only [Cell.valid, decide_eq_true_eq]
      omega
    · intro b hb
      show _ < mem1.size.nodes ∧ (_ → _ ≤ mem1.size.nw) ∧ _ ≤ mem1.size.edges ∧ (_ → _ ≤ mem1.size.ew)
      rw [← hm1, hlen, hrm]
      have h1 := hnb b hb
      have h2 := heb b hb
      refine ⟨?_, fun h => ?_, ?_, fun h => ?_⟩
      · show _ < mem.size.nodes; omega
      · have := z2 h; show _ ≤ mem.size.nw; omega
      · show _ ≤ mem.size.edges; omega
      · have := z4 h; show _ ≤ mem.size.ew; omega

/-! ## One block -/

theorem extractOne_spec {g : LGraph} (hp : g.Positive) {part mapping : Nat → Nat} {b : Nat} {ns : List Nat}
    (hns : ∀ u ∈ ns, u < g.length) (mem : Mem) :
    let r := extractOne g part mapping b ns mem
    r.2.graph r.1.cell = rows g part mapping b ns ∧ Held r.1.cell r.2 (rows g part mapping b ns) ∧
    r.2 = ⟨0, ns.length, 0, (rows g part mapping b ns).m, g.nodeWeighted, g.edgeWeighted⟩ ∧
    r.1.size = mem.size ∧
    (mem.ok = true → ns.length < mem.size.nodes → (g.nodeWeighted = true → ns.length ≤ mem.size.nw) →
      (rows g part mapping b ns).m ≤ mem.size.edges →
      (g.edgeWeighted = true → (rows g part mapping b ns).m ≤ mem.size.ew) → r.1.ok = true) := by
  obtain ⟨a1, a2, a3, a4, a5⟩ := extractLoop_spec (g := g) (part := part) (mapping := mapping) (b := b)
    (nwf := g.nodeWeighted) (ewf := g.edgeWeighted) (ns := ns) ns 0 mem rfl (Nat.zero_le _)
    ⟨fun i h => absurd h (Nat.not_lt_zero i), fun _ i h => absurd h (Nat.not_lt_zero i),
     fun j h => by rw [first_zero] at h; omega⟩
  rw [first_zero] at a1 a2 a3 a4 a5
  intro r
  have hr : r = extractOne g part mapping b ns mem := rfl
  clear_value r
  unfold extractOne at hr
  generalize extractLoop g part mapping b g.nodeWeighted g.edgeWeighted ns mem 0 0 = q at *
  subst hr
  dsimp only
  rw [a1, a2]
  have hfl : first (rows g part mapping b ns) ns.length = (rows g part mapping b ns).m := by
    rw [← first_length, length_rows]
  have hst : Stored (q.1.store (.node ns.length) ((rows g part mapping b ns).m : Int)).cell 0 0 g.nodeWeighted
      g.edgeWeighted (rows g part mapping b ns) := by
    constructor
    · intro i hi
      rw [length_rows] at hi
      rw [store_cell]
      by_cases h : i = ns.length
      · subst h; rw [Nat.zero_add, upd_same, hfl]
      · rw [upd_ne _ _ (by simp; omega)]
        exact a4.node i (by omega)
    · intro hw i hi
      rw [store_cell, upd_ne _ _ (by simp)]
      exact a4.nw hw i (by rw [length_rows] at hi; exact hi) hi
    · intro j hj
      rw [store_cell, upd_ne _ _ (by simp)]
      exact (a4.edge j (by rw [hfl, ← length_flat]; exact hj) hj).1
    · intro hw j hj
      rw [store_cell, upd_ne _ _ (by simp)]
      exact (a4.edge j (by rw [hfl, ← length_flat]; exact hj) hj).2 hw
  refine ⟨rows_view hp hns hst, ⟨(length_rows ..).symm, rfl, hst, rows_nw hp hns, rows_ew hp hns⟩, rfl, ?_, ?_⟩
  · rw [store_size, a3]
  · intro hok z1 z2 z3 z4
    rw [store_ok, a5 hok z1 z2 z3 z4, a3]
    simp [Cell.valid, z1]

/-- The preprocessing of the lazy extraction. -/
theorem lazy_pre {g : LGraph} {part : Nat → Nat} {k : Nat}
    (hpart : ∀ u, u < g.length → part u < k) {s : Sched} (hs : s.Ok g.length k part)
    (nodes0 mapping0 slot0 : Nat → Nat) :
    ∃ off, off = (lazyPreprocessing g part k s nodes0 mapping0 slot0).1 ∧
    ∃ ns, Bucketed g.length part off (lazyPreprocessing g part k s nodes0 mapping0 slot0).2.2 ns ∧
      (∀ b, b < k → (List.range' ((lazyPreprocessing g part k s nodes0 mapping0 slot0).1 b) (ns b).length).map
        (lazyPreprocessing g part k s nodes0 mapping0 slot0).2.2.nodes = ns b) ∧
      (∀ b, ∀ u ∈ ns b, u < g.length) ∧
      (∀ b, b < k → (lazyPreprocessing g part k s nodes0 mapping0 slot0).1 (b + 1) -
        (lazyPreprocessing g part k s nodes0 mapping0 slot0).1 b = (ns b).length) ∧
      (∀ b, (lazyPreprocessing g part k s nodes0 mapping0 slot0).2.1 b = bedges g part b) := by
  refine ⟨_, rfl, ?_⟩
  have hmn : (fun b => mergeCounts (countNodes part) s.threads b) = bsize g.length part := by
    funext b; rw [merge_nodes hs.threads]
  simp only [lazyPreprocessing]
  rw [hmn]
  have hn : ∀ b, b ≤ k → offsets k (bsize g.length part) b = psum (bsize g.length part) b :=
    fun b hb => offsets_eq _ hb
  have hn1 : ∀ b, b < k → offsets k (bsize g.length part) (b + 1) =
      offsets k (bsize g.length part) b + bsize g.length part b := by
    intro b hb; rw [hn b (by omega), hn (b + 1) (by omega), psum_succ]
  have hsep : Sep g.length k part (offsets k (bsize g.length part)) := by
    intro b hb; rw [hn1 b hb]
  have hbk := bucketed hsep hpart hs.steps hs.causal nodes0 mapping0 slot0
  refine ⟨_, hbk, ?_, ?_, ?_, fun b => merge_edges hs.threads b⟩
  · intro b hb
    apply List.ext_getElem
    · simp
    · intro i h1 h2
      rw [List.getElem_map, List.getElem_range', Nat.one_mul]
      exact hbk.nodes b i h2
  · intro b u hu
    exact List.mem_range.1 (List.mem_filter.1 ((hbk.perm b).mem_iff.1 hu)).1
  · intro b hb
    rw [hn1 b hb, hbk.length b]
    omega

end Verif.Subgraph
