import Verif.Subgraph.Extend

/-!
# Properties C30 and C31: block-induced subgraphs and recursive bisection
-/

namespace Verif.Subgraph.Props
open Verif.Contraction Verif.Blocks Verif.Math

/-! ## C30: extraction of all blocks -/

/-- **C30 (extraction).** For every graph with positive weights, every partition into `k` blocks and every
schedule of the three parallel loops: the graph object of block `b` is the subgraph induced by the block; the
graph objects of different blocks lie in different parts of the shared memory; and no store is outside the
arrays if these have `n + Σ pad` and `m` entries (`pad b` is the number of final blocks of block `b`). -/
theorem C30_extract_subgraphs {g : LGraph} (hp : g.Positive) {part pad : Nat → Nat} {k : Nat}
    (hpart : ∀ u, u < g.length → part u < k) (hpad : ∀ b, b < k → 1 ≤ pad b) {s : Sched}
    (hs : s.Ok g.length k part) (mem : Mem) (slot0 : Nat → Nat) :
    let r := extractAll g part pad k s mem slot0
    (∀ b, b < k → IsInduced g part b r.mapping ((r.views b).graph r.mem.cell)) ∧
    (∀ a b, a < b → b < k → (r.views a).npos + (r.views a).n < (r.views b).npos ∧
      (r.views a).epos + (r.views a).m ≤ (r.views b).epos) ∧
    (mem.ok = true → g.length + ((List.range k).map pad).sum ≤ mem.size.nodes →
      (g.nodeWeighted = true → g.length + ((List.range k).map pad).sum ≤ mem.size.nw) → g.m ≤ mem.size.edges →
      (g.edgeWeighted = true → g.m ≤ mem.size.ew) → r.mem.ok = true) := by
  have h := extractAll_ok hp hpart hpad hs mem slot0
  intro r
  refine ⟨h.induced, ?_, h.ok⟩
  intro a b hab hb
  rw [h.views a (by omega), h.views b hb]
  have h1 := psum_mono (fun b => pad b + bsize g.length part b) (show a + 1 ≤ b from hab)
  have h2 := psum_mono (bedges g part) (show a + 1 ≤ b from hab)
  have h3 := hpad a (by omega)
  rw [psum_succ] at h1 h2
  show psum _ a + bsize g.length part a < psum _ b ∧ psum _ a + bedges g part a ≤ psum _ b
  omega

/-- The schedule of one thread that processes everything in order. -/
def seqSched (n k : Nat) (part : Nat → Nat) : Sched :=
  { threads := [List.range n]
    steps := (List.range n).flatMap fun u => [Step.take u, Step.store u]
    construct := (List.range k).flatMap fun b => List.replicate ((List.range n).countP (part · = b) + 1) b }

/-- A path 0-1-2-3 with weights. -/
def path4 : LGraph := [(1, [(1, 2)]), (2, [(0, 2), (2, 1)]), (1, [(1, 1), (3, 3)]), (1, [(2, 3)])]

-- non-vacuity: blocks {0, 3} and {1, 2} of a weighted path; two threads, interleaved
example :
    let part : Nat → Nat := fun u => if u = 0 ∨ u = 3 then 0 else 1
    let s : Sched := ⟨[[3, 1], [0, 2]],
      [.take 3, .take 1, .take 0, .store 0, .store 3, .take 2, .store 2, .store 1], [1, 0, 1, 0, 0, 1]⟩
    let r := extractAll path4 part (fun _ => 1) 2 s ⟨fun _ => 7, ⟨6, 6, 6, 6⟩, true⟩ (fun _ => 9)
    path4.Positive ∧ s.Ok 4 2 part ∧ (List.range 4).map r.mapping = [1, 0, 1, 0] ∧
    (r.views 0).graph r.mem.cell = [(1, []), (1, [])] ∧
    (r.views 1).graph r.mem.cell = [(2, [(1, 1)]), (1, [(0, 1)])] ∧ r.mem.ok = true := by
  refine ⟨by decide, ⟨by decide, by decide, ?_, by decide, by decide⟩, by decide +kernel, by decide +kernel,
    by decide +kernel, by decide +kernel⟩
  intro i u h
  have hi : i < 8 := by
    have := (List.getElem?_eq_some_iff.1 h).1
    simpa using this
  have : ∀ i, i < 8 → ∀ st, ([Step.take 3, .take 1, .take 0, .store 0, .store 3, .take 2, .store 2, .store 1] :
      List Step)[i]? = some st → (∀ u, st = Step.store u → Step.take u ∈
      ([Step.take 3, .take 1, .take 0, .store 0, .store 3, .take 2, .store 2, .store 1] : List Step).take i) := by
    intro i hi st hst
    match i, hi with
    | 0, _ | 1, _ | 2, _ | 3, _ | 4, _ | 5, _ | 6, _ | 7, _ =>
      simp at hst; subst hst; intro u hu; first | (simp at hu; done) | (simp at hu; subst hu; decide)
  exact this i hi _ h u rfl

/-! ## C30: lazy extraction -/

/-- **C30 (lazy extraction).** The preprocessing counts the nodes and edges of every block, and the extraction of
a single block from its node list yields the induced subgraph; stores stay inside the thread's memory if it has
room for the block. -/
theorem C30_lazy_extraction {g : LGraph} (hp : g.Positive) {part : Nat → Nat} {k : Nat}
    (hpart : ∀ u, u < g.length → part u < k) {s : Sched} (hs : s.Ok g.length k part)
    (nodes0 mapping0 slot0 : Nat → Nat) (mem : Mem) {b : Nat} (hb : b < k) :
    let pre := lazyPreprocessing g part k s nodes0 mapping0 slot0
    let n := pre.1 (b + 1) - pre.1 b
    let r := extractOne g part pre.2.2.mapping b ((List.range' (pre.1 b) n).map pre.2.2.nodes) mem
    IsInduced g part b pre.2.2.mapping (r.2.graph r.1.cell) ∧
    n = (r.2.graph r.1.cell).length ∧ pre.2.1 b = (r.2.graph r.1.cell).m ∧
    (mem.ok = true → n < mem.size.nodes → (g.nodeWeighted = true → n ≤ mem.size.nw) →
      pre.2.1 b ≤ mem.size.edges → (g.edgeWeighted = true → pre.2.1 b ≤ mem.size.ew) → r.1.ok = true) := by
  obtain ⟨off, hoff, ns, hbk, hlist, hlt, hnb, hne⟩ := lazy_pre hpart hs nodes0 mapping0 slot0
  intro pre n r
  have hn : n = (ns b).length := by
    show pre.1 (b + 1) - pre.1 b = _
    exact hnb b hb
  have hr : r = extractOne g part pre.2.2.mapping b (ns b) mem := by
    show extractOne _ _ _ _ _ _ = _
    rw [hn, hlist b hb]
  have hm : pre.2.1 b = (rows g part pre.2.2.mapping b (ns b)).m := (hne b).trans (rows_m (hbk.perm b)).symm
  obtain ⟨e1, _, _, _, e3⟩ := extractOne_spec hp (part := part) (mapping := pre.2.2.mapping) (b := b) (hlt b) mem
  rw [← hr] at e1 e3
  refine ⟨?_, ?_, ?_, ?_⟩
  · rw [e1]; exact rows_induced hbk b
  · rw [e1, length_rows, hn]
  · rw [e1, hm]
  · rw [hn, hm]; exact e3

-- non-vacuity: block {1, 2} of the path, in the order 2, 1
example :
    let part : Nat → Nat := fun u => if u = 0 ∨ u = 3 then 0 else 1
    let s := seqSched 4 2 part
    let pre := lazyPreprocessing path4 part 2 s (fun _ => 0) (fun _ => 0) (fun _ => 0)
    let r := extractOne path4 part pre.2.2.mapping 1 ((List.range' (pre.1 1) 2).map pre.2.2.nodes)
      ⟨fun _ => 7, ⟨3, 2, 3, 2⟩, true⟩
    [pre.1 0, pre.1 1, pre.1 2] = [0, 2, 4] ∧ pre.2.1 1 = 2 ∧
    r.2.graph r.1.cell = [(2, [(1, 1)]), (1, [(0, 1)])] ∧ r.1.ok = true := by decide +kernel

/-- The memory of a thread suffices for the weighted parts of `g`: weight arrays are as long as the others. -/
def WeightRoom (g : LGraph) (s : Sizes) : Prop :=
  (g.nodeWeighted = true → s.nodes ≤ s.nw) ∧ (g.edgeWeighted = true → s.edges ≤ s.ew)

theorem ensureMem_room (g : LGraph) (n c m : Nat) (s : Sizes) (h : WeightRoom g s) :
    WeightRoom g (ensureMem g n c m s) ∧ n + c ≤ (ensureMem g n c m s).nodes ∧ m ≤ (ensureMem g n c m s).edges := by
  obtain ⟨h1, h2⟩ := h
  unfold ensureMem WeightRoom
  by_cases a : s.nodes < n + c <;> by_cases b : s.edges < m <;> cases hn : g.nodeWeighted <;>
    cases he : g.edgeWeighted <;> simp [a, b, hn, he] at h1 h2 ⊢ <;> omega

/-- **C30 (lazy extraction, memory; partial).** If the weight arrays of the thread's memory are as long as the
arrays of nodes and edges whenever the graph has such weights (true for a memory that was only used for graphs
that are weighted in the same way: the condition is kept), growing the memory makes room for every block.
Missing: the property for memories that were used for other graphs before, which is false
(`C30_lazy_memory_not_safe`). -/
theorem C30_lazy_memory_partial {g : LGraph} (hp : g.Positive) {part : Nat → Nat} {k : Nat}
    (hpart : ∀ u, u < g.length → part u < k) {s : Sched} (hs : s.Ok g.length k part)
    (nodes0 mapping0 slot0 : Nat → Nat) (mem : Mem) (hok : mem.ok = true) {b finalK : Nat} (hb : b < k)
    (hf : 1 ≤ finalK) (hroom : WeightRoom g mem.size) :
    let pre := lazyPreprocessing g part k s nodes0 mapping0 slot0
    let n := pre.1 (b + 1) - pre.1 b
    let m : Mem := { mem with size := ensureMem g n finalK (pre.2.1 b) mem.size }
    (extractOne g part pre.2.2.mapping b ((List.range' (pre.1 b) n).map pre.2.2.nodes) m).1.ok = true ∧
    WeightRoom g m.size := by
  intro pre n m
  obtain ⟨_, _, _, h⟩ := C30_lazy_extraction hp hpart hs nodes0 mapping0 slot0 m hb
  obtain ⟨⟨r1, r2⟩, r3, r4⟩ := ensureMem_room g n finalK (pre.2.1 b) mem.size hroom
  refine ⟨h hok ?_ (fun hw => ?_) r4 (fun hw => ?_), r1, r2⟩
  · show n < (ensureMem g n finalK (pre.2.1 b) mem.size).nodes; omega
  · have := r1 hw
    show n ≤ (ensureMem g n finalK (pre.2.1 b) mem.size).nw; omega
  · have := r2 hw
    show pre.2.1 b ≤ (ensureMem g n finalK (pre.2.1 b) mem.size).ew; omega

/-- A triangle with unit weights. -/
def triangle : LGraph := [(1, [(1, 1), (2, 1)]), (1, [(0, 1), (2, 1)]), (1, [(0, 1), (1, 1)])]
/-- An edge of weight 5. -/
def heavy : LGraph := [(1, [(1, 5)]), (1, [(0, 5)])]

/-- **C30 (lazy extraction, memory) does not hold in general**: the array of edge weights is only resized when the
array of edges grows.  After a block without edge weights (a triangle), a smaller block of a graph with edge
weights (one edge) is extracted into a memory without edge weights: the store is out of bounds. -/
theorem C30_lazy_memory_not_safe :
    let s1 := ensureMem triangle 3 1 6 ⟨0, 0, 0, 0⟩
    let m1 := (extractOne triangle (fun _ => 0) id 0 [0, 1, 2] ⟨fun _ => 0, s1, true⟩).1
    let s2 := ensureMem heavy 2 1 2 m1.size
    m1.ok = true ∧ s2 = ⟨4, 6, 0, 0⟩ ∧
    (extractOne heavy (fun _ => 0) id 0 [0, 1] { m1 with size := s2 }).1.ok = false := by decide +kernel

example : WeightRoom heavy ⟨3, 2, 0, 2⟩ ∧ ¬ WeightRoom heavy ⟨4, 6, 0, 0⟩ := by
  refine ⟨⟨fun h => absurd h (by decide), by decide⟩, fun h => absurd (h.2 (by decide)) (by decide)⟩

/-! ## C30: the two sides of a bipartition -/

/-- The order-preserving subgraph is an induced subgraph. -/
theorem induced_isInduced (g : LGraph) (part : Nat → Nat) (b : Nat) :
    IsInduced g part b (rank part) (induced g part b) := by
  constructor
  · unfold induced; rw [List.length_map]
  · intro u hu hb
    rw [length_induced, ← hb]
    exact rank_lt part hu
  · intro u v hu hv hub hvb h
    have h1 := blockNodes_get part hu
    have h2 := blockNodes_get part hv
    rw [hub] at h1
    rw [hvb, ← h, h1] at h2
    simpa using h2
  · intro u hu hb
    have h1 := blockNodes_get part hu
    rw [hb] at h1
    unfold induced
    rw [List.getElem?_map]
    unfold blockNodes at h1
    rw [h1]
    rfl

/-- **C30 (two sides).** The sequential extraction of the two sides of a bipartition, starting at any position of
the memory (possibly overwriting the graph itself), yields the two induced subgraphs with the nodes in their
order, at different places; it only changes the cells from `npos` to `npos + n + k₀ + k₁` and from `epos` to
`epos + m`, and stays inside the arrays if these cells do; stores to the temporary memory are always in bounds. -/
theorem C30_extract_two_sides {g : LGraph} (hwf : g.WF) (hp : g.Positive) {part : Nat → Nat}
    (hpart : ∀ u, u < g.length → part u < 2) {k0 k1 : Nat} (hk0 : 1 ≤ k0) (hk1 : 1 ≤ k1) (npos epos : Nat)
    (mem tmp : Mem) (map0 : Nat → Nat) :
    let r := extractSeq g part k0 k1 npos epos mem tmp map0
    r.2.2.1.graph r.1.cell = induced g part 0 ∧ r.2.2.2.graph r.1.cell = induced g part 1 ∧
    (r.2.2.1.npos = npos ∧ npos + r.2.2.1.n + k0 = r.2.2.2.npos ∧
      r.2.2.2.npos + r.2.2.2.n + k1 = npos + g.length + k0 + k1) ∧
    (r.2.2.1.epos = epos ∧ epos + r.2.2.1.m = r.2.2.2.epos ∧ r.2.2.2.epos + r.2.2.2.m ≤ epos + g.m) ∧
    (∀ i, i < npos ∨ npos + g.length + k0 + k1 ≤ i →
      r.1.cell (.node i) = mem.cell (.node i) ∧ r.1.cell (.nw i) = mem.cell (.nw i)) ∧
    (∀ i, i < epos ∨ epos + g.m ≤ i →
      r.1.cell (.edge i) = mem.cell (.edge i) ∧ r.1.cell (.ew i) = mem.cell (.ew i)) ∧
    (mem.ok = true → npos + g.length + k0 + k1 ≤ mem.size.nodes → epos + g.m ≤ mem.size.edges →
      (g.nodeWeighted = true → npos + g.length + k0 + k1 ≤ mem.size.nw) →
      (g.edgeWeighted = true → epos + g.m ≤ mem.size.ew) → r.1.ok = true) ∧
    (tmp.ok = true → r.2.1.ok = true) := by
  obtain ⟨e1, e2, e3, e4, e5, e6, e7, e8, _⟩ := extractSeq_spec hwf hp hpart hk0 hk1 npos epos mem tmp map0
  intro r
  have hbe := bedges_two g part
  have hbs : bsize g.length part 0 + bsize g.length part 1 = g.length := by
    have := psum_bsize (k := 2) (n := g.length) (part := part) hpart
    simpa [psum, List.range_succ] using this
  refine ⟨e1.graph (induced_positive hp part 0), e2.graph (induced_positive hp part 1), ?_, ?_, ?_, ?_, ?_, e8⟩
  · rw [e3, e4]
    refine ⟨rfl, ?_, ?_⟩
    · show npos + bsize g.length part 0 + k0 = npos + (bsize g.length part 0 + k0); omega
    · show npos + (bsize g.length part 0 + k0) + bsize g.length part 1 + k1 = _; omega
  · rw [e3, e4]
    refine ⟨rfl, rfl, ?_⟩
    show epos + bedges g part 0 + bedges g part 1 ≤ _
    omega
  · intro i hi
    exact ⟨e5 (.node i) (fun h => by simp only [Area] at h; omega), e5 (.nw i) (fun h => by simp only [Area] at h; omega)⟩
  · intro i hi
    exact ⟨e5 (.edge i) (fun h => by simp only [Area] at h; omega), e5 (.ew i) (fun h => by simp only [Area] at h; omega)⟩
  · intro hok z1 z2 z3 z4
    refine e7 hok (by omega) (by omega) (fun h => ?_) (fun h => ?_)
    · have := z3 h; omega
    · have := z4 h; omega

-- non-vacuity: sides {0, 1, 3} and {2} of the path
example : path4.WF ∧ path4.Positive ∧
    induced path4 (fun u => if u = 2 then 1 else 0) 0 = [(1, [(1, 2)]), (2, [(0, 2)]), (1, [])] ∧
    induced path4 (fun u => if u = 2 then 1 else 0) 1 = [(1, [])] := by decide +kernel

/-! ## C30: copying the labels back -/

/-- **C30 (copying back).** For every order in which the parallel loop runs over the nodes, node `u` of block
`b` gets the offset of its block plus the label of its own node in the subgraph of `b`; the offset of block `b` is
the total number of sub-blocks of the blocks before. -/
theorem C30_copy_back (k desiredK inputK : Nat) (pad part mapping : Nat → Nat) (sub : Nat → List Nat) (n : Nat)
    (hpart : ∀ u, u < n → part u < k) (order : List Nat) (ho : order.Perm (List.range n)) :
    let p := copyPartitions (blockOffsets k desiredK inputK pad) sub mapping order part
    (∀ u, u < n → p u = ((List.range (part u)).map fun b => if desiredK = inputK then pad b else desiredK / k).sum +
      (sub (part u)).getD (mapping u) 0) ∧ ∀ u, n ≤ u → p u = part u := by
  intro p
  have hnd : order.Nodup := ho.nodup_iff.2 List.nodup_range
  obtain ⟨h1, h2⟩ := copyPartitions_spec (blockOffsets k desiredK inputK pad) sub mapping order part hnd
  constructor
  · intro u hu
    refine (h1 u (ho.mem_iff.2 (List.mem_range.2 hu))).trans ?_
    unfold blockOffsets
    rw [offsets_eq _ (Nat.le_of_lt (hpart u hu))]
    rfl
  · intro u hu
    exact h2 u fun h => absurd (List.mem_range.1 (ho.mem_iff.1 h)) (by omega)

example : (List.range 3).map (copyPartitions (blockOffsets 2 5 5 (fun b => if b = 0 then 3 else 2))
    (fun b => if b = 0 then [2, 0] else [1]) (fun u => if u = 2 then 1 else 0) [2, 0, 1] (fun u => if u = 1 then 1 else 0))
    = [2, 4, 0] := by decide +kernel

/-! ## C31: recursive bisection -/

/-- **C31 (labels).** Let a graph object show `g` in a memory and let it be block `b` of `2^l`, which is to be
split into `numSub ≥ 2` of its final blocks.  For every outcome of the bisections, the recursive function is
defined and changes exactly the labels `rel`: the `i`-th of them becomes `label … i`, the label that the bisections
give to node `i` (computed without any memory).  It only uses the memory reserved for the block. -/
theorem C31_recursive_bisection {inputK l : Nat} (hk : inputK < 2 ^ 31) (hl : 2 ^ l ≤ inputK)
    {bip : LGraph → Nat → Nat → Nat → Nat} (hbip : ∀ g b k u, bip g b k u < 2) (map0 : Nat → Nat) (v : View)
    (ms : Mems) {g : LGraph} (hv : Held ms.mem.cell v g) (hwf : g.WF) (hp : g.Positive) {rel b numSub : Nat}
    (hb : b < 2 ^ l) {finalK : Nat} (hfk : finalKRoot? b (2 ^ l) inputK = some finalK) (h2 : 2 ≤ numSub)
    (hle : numSub ≤ finalK) {partition : List Nat} (hpart : ∀ x ∈ partition, ¬ (rel < x ∧ x < rel + numSub)) :
    ∃ ms', extendRec inputK bip map0 numSub v rel b numSub (2 ^ l) partition ms =
        some (relabel rel (label bip numSub g b (2 ^ l) rel numSub) partition 0, ms') ∧
      Effect v g finalK ms ms' := by
  rw [finalKRoot_eq hk hl hb] at hfk
  cases hfk
  exact extendRec_spec hk hbip map0 numSub v g rel b l numSub partition ms hv hwf hp hl hb h2 (Nat.le_refl _) hle hpart

/-- **C31 (valid labels).** Every label lies in the range of `numSub` labels from `rel` on, and two nodes get the same
label if and only if all bisections on the way put them on the same sides. -/
theorem C31_labels {bip : LGraph → Nat → Nat → Nat → Nat} (g : LGraph) (b k rel numSub : Nat) (h : 1 ≤ numSub) :
    (∀ u, rel ≤ label bip numSub g b k rel numSub u ∧ label bip numSub g b k rel numSub u < rel + numSub) ∧
    (∀ u v, label bip numSub g b k rel numSub u = label bip numSub g b k rel numSub v ↔
      path bip numSub g b k numSub u = path bip numSub g b k numSub v) :=
  ⟨fun u => label_range bip numSub g b k rel numSub u h,
   fun u v => label_path bip numSub g b k rel numSub u v h (Nat.le_refl _)⟩

-- non-vacuity: the path into 3 blocks; the bisection separates the last node of every graph
example :
    let bip : LGraph → Nat → Nat → Nat → Nat := fun g _ _ u => if u + 1 = g.length then 1 else 0
    (List.range 4).map (label bip 3 path4 0 1 0 3) = [0, 0, 1, 2] ∧
    (List.range 4).map (path bip 3 path4 0 1 3) = [[0, 0], [0, 0], [0, 1], [1]] := by decide +kernel

theorem mem_areas {pad sz ed : Nat → Nat} {a b : Nat} (hne : a ≠ b) {x : Cell}
    (h : Area (psum (fun b => pad b + sz b) a) (psum ed a) (sz a + pad a) (ed a) x) :
    ¬ Area (psum (fun b => pad b + sz b) b) (psum ed b) (sz b + pad b) (ed b) x := by
  rcases Nat.lt_or_gt_of_ne hne with hlt | hlt
  · have h1 := psum_mono (fun b => pad b + sz b) (show a + 1 ≤ b from hlt)
    have h2 := psum_mono ed (show a + 1 ≤ b from hlt)
    rw [psum_succ] at h1 h2
    cases x <;> simp only [Area] at h ⊢ <;> omega
  · have h1 := psum_mono (fun b => pad b + sz b) (show b + 1 ≤ a from hlt)
    have h2 := psum_mono ed (show b + 1 ≤ a from hlt)
    rw [psum_succ] at h1 h2
    cases x <;> simp only [Area] at h ⊢ <;> omega

/-- **C31 (extending a partition).** A partition of a graph into `2^l` blocks is extended to `desiredK` blocks
(the final number, or a smaller power of two), for every schedule of the extraction, every order of the parallel
loops and every outcome of the bisections.  The call is defined, and
* every node gets a label below `desiredK`, in the range reserved for its block: the sizes of the ranges are the
  final block counts if `desiredK` is final, otherwise `desiredK / 2^l`;
* two nodes share a label if and only if they were in the same block and all bisections on the path (of the
  subgraph induced by the block) put them on the same sides;
* the memory of `n + inputK` nodes and `m` edges is never exceeded. -/
theorem C31_extend_partition {g : LGraph} (hwf : g.WF) (hp : g.Positive) {part : Nat → Nat} {l inputK desiredK : Nat}
    (hk : inputK < 2 ^ 31) (hl : 2 ^ l ≤ inputK) (hpart : ∀ u, u < g.length → part u < 2 ^ l)
    (hd : desiredK = inputK ∨ (∃ j, l ≤ j ∧ desiredK = 2 ^ j) ∧ desiredK ≤ inputK)
    {bip : LGraph → Nat → Nat → Nat → Nat} (hbip : ∀ g b k u, bip g b k u < 2) (map0 : Nat → Nat) {s : Sched}
    (hs : s.Ok g.length (2 ^ l) part) (mem : Mem) (slot0 : Nat → Nat) (tmp : Nat → Mem) {order nodeOrder : List Nat}
    (ho : order.Perm (List.range (2 ^ l))) (hno : nodeOrder.Perm (List.range g.length)) :
    ∃ p r m pad, extendPartition g part (2 ^ l) inputK desiredK bip map0 s mem slot0 tmp order nodeOrder = some (p, r, m) ∧
      (∀ b, b < 2 ^ l → finalKRoot? b (2 ^ l) inputK = some (pad b)) ∧
      (∀ b, b < 2 ^ l → IsInduced g part b r.mapping ((r.views b).graph r.mem.cell)) ∧
      (∀ u, u < g.length → p u < desiredK) ∧
      (∀ u, u < g.length →
        ((List.range (part u)).map (subK (2 ^ l) inputK desiredK pad)).sum ≤ p u ∧
        p u < ((List.range (part u)).map (subK (2 ^ l) inputK desiredK pad)).sum + subK (2 ^ l) inputK desiredK pad (part u)) ∧
      (∀ u v, u < g.length → v < g.length → (p u = p v ↔ part u = part v ∧
        path bip (subK (2 ^ l) inputK desiredK pad (part u)) ((r.views (part u)).graph r.mem.cell) (part u) (2 ^ l)
            (subK (2 ^ l) inputK desiredK pad (part u)) (r.mapping u) =
          path bip (subK (2 ^ l) inputK desiredK pad (part u)) ((r.views (part u)).graph r.mem.cell) (part u) (2 ^ l)
            (subK (2 ^ l) inputK desiredK pad (part u)) (r.mapping v))) ∧
      (mem.ok = true → (∀ b, (tmp b).ok = true) → g.length + inputK ≤ mem.size.nodes → g.m ≤ mem.size.edges →
        (g.nodeWeighted = true → g.length + inputK ≤ mem.size.nw) → (g.edgeWeighted = true → g.m ≤ mem.size.ew) →
        m.ok = true) := by
  have hpads : (List.range (2 ^ l)).mapM (fun b => finalKRoot? b (2 ^ l) inputK) =
      some ((List.range (2 ^ l)).map (treeLabel inputK l)) :=
    mapM_some fun b hb => finalKRoot_eq hk hl (List.mem_range.1 hb)
  obtain ⟨pad, hpd⟩ : ∃ pad : Nat → Nat, pad = fun b => ((List.range (2 ^ l)).map (treeLabel inputK l)).getD b 0 := ⟨_, rfl⟩
  have hpad : ∀ b, b < 2 ^ l → pad b = treeLabel inputK l b := by
    intro b hb
    rw [hpd]
    exact getD_range_map _ _ hb
  have hpad1 : ∀ b, b < 2 ^ l → 1 ≤ pad b := fun b hb => by rw [hpad b hb]; exact treeLabel_pos hl hb
  have hx := extractAll_ok hp hpart hpad1 hs mem slot0
  have hun : extendPartition g part (2 ^ l) inputK desiredK bip map0 s mem slot0 tmp order nodeOrder =
      (order.foldlM (extendBlock inputK desiredK (2 ^ l) bip map0 pad (extractAll g part pad (2 ^ l) s mem slot0).views tmp)
        ((extractAll g part pad (2 ^ l) s mem slot0).mem,
          fun b => List.replicate ((extractAll g part pad (2 ^ l) s mem slot0).views b).n 0)).bind fun st =>
      some (copyPartitions (blockOffsets (2 ^ l) desiredK inputK pad) st.2 (extractAll g part pad (2 ^ l) s mem slot0).mapping
        nodeOrder part, extractAll g part pad (2 ^ l) s mem slot0, st.1) := by
    unfold extendPartition
    rw [hpads, hpd]
    rfl
  have hdis := fun (a b : Nat) (x : Cell) (_ : a < 2 ^ l) (_ : b < 2 ^ l) (hne : a ≠ b) =>
    mem_areas (pad := pad) (sz := bsize g.length part) (ed := bedges g part) hne (x := x)
  have hsz := hx.size
  have hind := hx.induced
  have hok := hx.ok
  have hlen : ∀ b, b < 2 ^ l → (((extractAll g part pad (2 ^ l) s mem slot0).views b).graph
      (extractAll g part pad (2 ^ l) s mem slot0).mem.cell).length = bsize g.length part b := by
    intro b hb
    have := (hx.held b hb).n
    rw [← this, hx.views b hb]
  have hm := hx.m
  have hvn : ∀ b, b < 2 ^ l → ((extractAll g part pad (2 ^ l) s mem slot0).views b).npos =
      psum (fun b => pad b + bsize g.length part b) b := fun b hb => by rw [hx.views b hb]
  have hve : ∀ b, b < 2 ^ l → ((extractAll g part pad (2 ^ l) s mem slot0).views b).epos =
      psum (bedges g part) b := fun b hb => by rw [hx.views b hb]
  have hvl : ∀ b, b < 2 ^ l → ((extractAll g part pad (2 ^ l) s mem slot0).views b).n =
      bsize g.length part b := fun b hb => by rw [hx.views b hb]
  have hwf' := hx.wf hwf
  have hpos' := hx.positive
  have hheld := hx.held
  have hnw : ∀ b, b < 2 ^ l → (((extractAll g part pad (2 ^ l) s mem slot0).views b).graph
      (extractAll g part pad (2 ^ l) s mem slot0).mem.cell).nodeWeighted = true → g.nodeWeighted = true := by
    intro b hb h
    cases hg : g.nodeWeighted with
    | true => rfl
    | false =>
      exfalso
      have h1 := (hx.held b hb).nw (by rw [hx.views b hb]; exact hg)
      unfold LGraph.nodeWeighted at h
      rw [sum_ones (fun x hx' => by obtain ⟨r, hr, rfl⟩ := List.mem_map.1 hx'; exact h1 r hr), List.length_map] at h
      simp at h
  have hew : ∀ b, b < 2 ^ l → (((extractAll g part pad (2 ^ l) s mem slot0).views b).graph
      (extractAll g part pad (2 ^ l) s mem slot0).mem.cell).edgeWeighted = true → g.edgeWeighted = true := by
    intro b hb h
    cases hg : g.edgeWeighted with
    | true => rfl
    | false =>
      exfalso
      have h1 := (hx.held b hb).ew (by rw [hx.views b hb]; exact hg)
      unfold LGraph.edgeWeighted at h
      rw [sum_ones (fun x hx' => by
        obtain ⟨y, hy, rfl⟩ := List.mem_map.1 hx'
        obtain ⟨r, hr, hmm⟩ := List.mem_flatMap.1 hy
        exact h1 r hr _ hmm), List.length_map] at h
      simp at h
  rw [hun]
  clear hx hun hpads
  generalize extractAll g part pad (2 ^ l) s mem slot0 = r at *
  obtain ⟨st', f1, f2, _, f4, f5⟩ := extend_fold hk hbip map0 hl hd hpad (views := r.views)
    (gs := fun b => (r.views b).graph r.mem.cell) hwf' hpos' tmp
    (fun a b x ha hb hne h => by
      rw [hvn a ha, hve a ha, hlen a ha, hm a ha] at h
      rw [hvn b hb, hve b hb, hlen b hb, hm b hb]
      exact hdis a b x ha hb hne h) order
    (r.mem, fun b => List.replicate (r.views b).n 0) (ho.nodup_iff.2 List.nodup_range)
    (fun b hb => List.mem_range.1 (ho.mem_iff.1 hb)) (fun b hb => hheld b (List.mem_range.1 (ho.mem_iff.1 hb)))
    (fun b hb => by
      have hb' := List.mem_range.1 (ho.mem_iff.1 hb)
      show List.replicate (r.views b).n 0 = _
      rw [hvl b hb', hlen b hb'])
  rw [f1]
  obtain ⟨q1, q2, q3, q4⟩ := labels_final hpart hd hpad
    (lab := fun b => label bip (subK (2 ^ l) inputK desiredK pad b) ((r.views b).graph r.mem.cell) b (2 ^ l) 0
      (subK (2 ^ l) inputK desiredK pad b)) (sub := st'.2) (mapping := r.mapping)
    (len := fun b => ((r.views b).graph r.mem.cell).length)
    (fun b hb => f2 b (ho.mem_iff.2 (List.mem_range.2 hb)))
    (fun u hu => (hind (part u) (hpart u hu)).lt u hu rfl)
    (fun b i hb => by
      have := label_range bip (subK (2 ^ l) inputK desiredK pad b) ((r.views b).graph r.mem.cell) b (2 ^ l) 0
        (subK (2 ^ l) inputK desiredK pad b) i (subK_pos hl hd hb (hpad b hb))
      omega) hno
  refine ⟨_, _, _, pad, rfl, fun b hb => by rw [hpad b hb]; exact finalKRoot_eq hk hl hb, hind, q3, ?_, ?_, ?_⟩
  · intro u hu
    have := q2 u hu
    rw [psum_succ] at this
    exact this
  · intro u v hu hv
    rw [q4 u v hu hv]
    constructor
    · rintro ⟨h1, h2⟩
      refine ⟨h1, ?_⟩
      rw [← h1] at h2
      exact (label_path bip _ _ _ _ _ _ _ _ (subK_pos hl hd (hpart u hu) (hpad _ (hpart u hu))) (Nat.le_refl _)).1 h2
    · rintro ⟨h1, h2⟩
      refine ⟨h1, ?_⟩
      rw [← h1]
      exact (label_path bip _ _ _ _ _ _ _ _ (subK_pos hl hd (hpart u hu) (hpad _ (hpart u hu))) (Nat.le_refl _)).2 h2
  · intro hmok htmp z1 z2 z3 z4
    have hsum : psum pad (2 ^ l) = inputK := by
      rw [psum_congr (b := treeLabel inputK l) hpad, psum_treeLabel]
    rw [hsum] at hok
    refine f5 (hok hmok z1 z3 z2 z4) htmp ?_
    intro b hb
    have hb' := List.mem_range.1 (ho.mem_iff.1 hb)
    have t1 := psum_mono (fun b => pad b + bsize g.length part b) (show b + 1 ≤ 2 ^ l from hb')
    have t2 := psum_mono (bedges g part) (show b + 1 ≤ 2 ^ l from hb')
    have t4 := psum_add pad (bsize g.length part) (2 ^ l)
    rw [hsum, psum_bsize hpart] at t4
    rw [psum_succ, t4] at t1
    rw [psum_succ] at t2
    have t3 := psum_bedges g part (2 ^ l)
    have u1 : (r.views b).npos + (((r.views b).graph r.mem.cell).length + pad b) ≤ g.length + inputK := by
      rw [hvn b hb', hlen b hb']; omega
    have u2 : (r.views b).epos + ((r.views b).graph r.mem.cell).m ≤ g.m := by
      rw [hve b hb', hm b hb']; omega
    show Room r.mem.size _ _ _
    rw [hsz]
    exact ⟨by omega, by omega, fun h => Nat.le_trans u1 (z3 (hnw b hb' h)), fun h => Nat.le_trans u2 (z4 (hew b hb' h))⟩

-- non-vacuity: the path with blocks {0, 1} and {2, 3} extended from 2 to 3 blocks; the first block is split
example : path4.WF ∧ path4.Positive ∧ (2 : Nat) ^ 1 ≤ 3 ∧
    (let part : Nat → Nat := fun u => u / 2
     let bip : LGraph → Nat → Nat → Nat → Nat := fun g _ _ u => if u + 1 = g.length then 1 else 0
     ((extendPartition path4 part 2 3 3 bip id (seqSched 4 2 part) ⟨fun _ => 0, ⟨7, 6, 7, 6⟩, true⟩ id
       (fun _ => ⟨fun _ => 0, ⟨0, 0, 0, 0⟩, true⟩) [1, 0] [2, 0, 3, 1]).map fun r => ((List.range 4).map r.1, r.2.2.ok)) =
       some ([0, 1, 2, 2], true)) := by decide +kernel

/-! ## C31: lazy extraction -/

theorem held_nw {mem : Cell → Int} {v : View} {g : LGraph} (h : Held mem v g) (hw : g.nodeWeighted = true) : v.nw = true := by
  cases hv : v.nw with
  | true => rfl
  | false =>
    exfalso
    have h1 := h.nw hv
    unfold LGraph.nodeWeighted at hw
    rw [sum_ones (fun x hx' => by obtain ⟨r, hr, rfl⟩ := List.mem_map.1 hx'; exact h1 r hr), List.length_map] at hw
    simp at hw

theorem held_ew {mem : Cell → Int} {v : View} {g : LGraph} (h : Held mem v g) (hw : g.edgeWeighted = true) : v.ew = true := by
  cases hv : v.ew with
  | true => rfl
  | false =>
    exfalso
    have h1 := h.ew hv
    unfold LGraph.edgeWeighted at hw
    rw [sum_ones (fun x hx' => by
      obtain ⟨y, hy, rfl⟩ := List.mem_map.1 hx'
      obtain ⟨r, hr, hmm⟩ := List.mem_flatMap.1 hy
      exact h1 r hr _ hmm), List.length_map] at hw
    simp at hw

theorem lazyBlock_spec {g : LGraph} (hwf : g.WF) (hp : g.Positive) {part : Nat → Nat} {l inputK desiredK : Nat}
    (hk : inputK < 2 ^ 31) (hl : 2 ^ l ≤ inputK) (hd : DesiredOk l inputK desiredK)
    {bip : LGraph → Nat → Nat → Nat → Nat} (hbip : ∀ g b k u, bip g b k u < 2) (map0 : Nat → Nat) {pad off ne : Nat → Nat}
    {start : Nat → Nat} {bs : BState} {ns : Nat → List Nat} (hbk : Bucketed g.length part start bs ns) {b : Nat}
    (hb : b < 2 ^ l) (hpad : pad b = treeLabel inputK l b)
    (hlist : (List.range' (off b) (ns b).length).map bs.nodes = ns b) (hlt : ∀ u ∈ ns b, u < g.length)
    (hnb : off (b + 1) - off b = (ns b).length) (hne : ne b = bedges g part b) (mem tmp : Mem) :
    ∃ ok, lazyBlock g part (2 ^ l) inputK desiredK bip map0 pad off ne bs mem tmp b =
      some ((List.range (ns b).length).map (label bip (subK (2 ^ l) inputK desiredK pad b) (rows g part bs.mapping b (ns b)) b
        (2 ^ l) 0 (subK (2 ^ l) inputK desiredK pad b)), ok) ∧
      (mem.ok = true → tmp.ok = true → WeightRoom g mem.size → ok = true) := by
  unfold lazyBlock
  dsimp only
  rw [hnb, hlist]
  by_cases h1 : subK (2 ^ l) inputK desiredK pad b ≤ 1
  · rw [if_pos h1]
    refine ⟨true, ?_, fun _ _ _ => rfl⟩
    rw [replicate_eq_map]
    intro u
    exact label_one bip _ _ _ _ _ _ _ (by omega)
  · rw [if_neg h1]
    have hm : (rows g part bs.mapping b (ns b)).m = ne b := by rw [hne]; exact rows_m (hbk.perm b)
    generalize hmem : ({ mem with size := ensureMem g (ns b).length (pad b) (ne b) mem.size } : Mem) = m1
    obtain ⟨_, e2, e3, e4, e5⟩ := extractOne_spec hp (part := part) (mapping := bs.mapping) (b := b) hlt m1
    obtain ⟨ms', q1, q2⟩ := extendRec_spec hk hbip map0 (subK (2 ^ l) inputK desiredK pad b)
      (extractOne g part bs.mapping b (ns b) m1).2 (rows g part bs.mapping b (ns b)) 0 b l
      (subK (2 ^ l) inputK desiredK pad b) (List.replicate (ns b).length 0)
      ⟨(extractOne g part bs.mapping b (ns b) m1).1, tmp⟩ e2 (rows_wf hwf hbk b) (rows_positive hp hlt) hl hb (by omega)
      (Nat.le_refl _) (subK_le hd hb hpad) (fun x hx h => by
        have := (List.mem_replicate.1 hx).2
        omega)
    rw [q1]
    refine ⟨ms'.mem.ok && ms'.tmp.ok, ?_, ?_⟩
    · rw [relabel_replicate, List.range_eq_range']
      rfl
    · intro hok htmp hroom
      obtain ⟨⟨r1, r2⟩, r3, r4⟩ := ensureMem_room g (ns b).length (pad b) (ne b) mem.size hroom
      have hsz : m1.size = ensureMem g (ns b).length (pad b) (ne b) mem.size := by rw [← hmem]
      have hp1 := treeLabel_pos hl hb
      rw [← hsz] at r1 r2 r3 r4
      rw [hm] at e5
      have hok1 : m1.ok = true := by rw [← hmem]; exact hok
      have hok2 := e5 hok1 (by omega) (fun h => by have := r1 h; omega) r4 (fun h => Nat.le_trans r4 (r2 h))
      rw [q2.tmp htmp, q2.ok hok2 ?_]
      · rfl
      · show Room (extractOne g part bs.mapping b (ns b) m1).1.size _ _ _
        rw [e4, ← hpad]
        have v1 := held_nw e2
        have v2 := held_ew e2
        rw [e3] at v1 v2 ⊢
        constructor
        · show 0 + ((rows g part bs.mapping b (ns b)).length + pad b) ≤ _
          rw [length_rows]; omega
        · show 0 + (rows g part bs.mapping b (ns b)).m ≤ _
          rw [hm]; omega
        · intro h
          show 0 + ((rows g part bs.mapping b (ns b)).length + pad b) ≤ _
          have := r1 (v1 h)
          rw [length_rows]; omega
        · intro h
          show 0 + (rows g part bs.mapping b (ns b)).m ≤ _
          have := r2 (v2 h)
          rw [hm]; omega

/-- **C31 (extending a partition, lazy extraction).** As `C31_extend_partition`, but every block is extracted into
the memory of the thread that processes it (`mem b`, any content and size).  Memory safety needs `WeightRoom`
(see `C30_lazy_memory_not_safe`). -/
theorem C31_extend_partition_lazy {g : LGraph} (hwf : g.WF) (hp : g.Positive) {part : Nat → Nat} {l inputK desiredK : Nat}
    (hk : inputK < 2 ^ 31) (hl : 2 ^ l ≤ inputK) (hpart : ∀ u, u < g.length → part u < 2 ^ l)
    (hd : desiredK = inputK ∨ (∃ j, l ≤ j ∧ desiredK = 2 ^ j) ∧ desiredK ≤ inputK)
    {bip : LGraph → Nat → Nat → Nat → Nat} (hbip : ∀ g b k u, bip g b k u < 2) (map0 : Nat → Nat) {s : Sched}
    (hs : s.Ok g.length (2 ^ l) part) (nodes0 mapping0 slot0 : Nat → Nat) (mem tmp : Nat → Mem) {nodeOrder : List Nat}
    (hno : nodeOrder.Perm (List.range g.length)) :
    ∃ (p : Nat → Nat) (bs : BState) (rs : List (List Nat × Bool)) (pad : Nat → Nat) (sub : Nat → LGraph),
      extendLazy g part (2 ^ l) inputK desiredK bip map0 s nodes0 mapping0 slot0 mem tmp nodeOrder = some (p, bs, rs) ∧
      (∀ b, b < 2 ^ l → finalKRoot? b (2 ^ l) inputK = some (pad b)) ∧
      (∀ b, b < 2 ^ l → IsInduced g part b bs.mapping (sub b)) ∧
      (∀ u, u < g.length → p u < desiredK) ∧
      (∀ u, u < g.length →
        ((List.range (part u)).map (subK (2 ^ l) inputK desiredK pad)).sum ≤ p u ∧
        p u < ((List.range (part u)).map (subK (2 ^ l) inputK desiredK pad)).sum + subK (2 ^ l) inputK desiredK pad (part u)) ∧
      (∀ u v, u < g.length → v < g.length → (p u = p v ↔ part u = part v ∧
        path bip (subK (2 ^ l) inputK desiredK pad (part u)) (sub (part u)) (part u) (2 ^ l)
            (subK (2 ^ l) inputK desiredK pad (part u)) (bs.mapping u) =
          path bip (subK (2 ^ l) inputK desiredK pad (part u)) (sub (part u)) (part u) (2 ^ l)
            (subK (2 ^ l) inputK desiredK pad (part u)) (bs.mapping v))) ∧
      ((∀ b, (mem b).ok = true ∧ (tmp b).ok = true ∧ WeightRoom g (mem b).size) → ∀ q ∈ rs, q.2 = true) := by
  have hpads : (List.range (2 ^ l)).mapM (fun b => finalKRoot? b (2 ^ l) inputK) =
      some ((List.range (2 ^ l)).map (treeLabel inputK l)) :=
    mapM_some fun b hb => finalKRoot_eq hk hl (List.mem_range.1 hb)
  obtain ⟨pad, hpd⟩ : ∃ pad : Nat → Nat, pad = fun b => ((List.range (2 ^ l)).map (treeLabel inputK l)).getD b 0 := ⟨_, rfl⟩
  have hpad : ∀ b, b < 2 ^ l → pad b = treeLabel inputK l b := by
    intro b hb
    rw [hpd]
    exact getD_range_map _ _ hb
  obtain ⟨_, _, ns, hbk, hlist, hlt, hnb, hne⟩ := lazy_pre hpart hs nodes0 mapping0 slot0
  have hun : extendLazy g part (2 ^ l) inputK desiredK bip map0 s nodes0 mapping0 slot0 mem tmp nodeOrder =
      ((List.range (2 ^ l)).mapM fun b => lazyBlock g part (2 ^ l) inputK desiredK bip map0 pad
        (lazyPreprocessing g part (2 ^ l) s nodes0 mapping0 slot0).1
        (lazyPreprocessing g part (2 ^ l) s nodes0 mapping0 slot0).2.1
        (lazyPreprocessing g part (2 ^ l) s nodes0 mapping0 slot0).2.2 (mem b) (tmp b) b).bind fun rs =>
      some (copyPartitions (blockOffsets (2 ^ l) desiredK inputK pad) (fun b => (rs.getD b ([], true)).1)
        (lazyPreprocessing g part (2 ^ l) s nodes0 mapping0 slot0).2.2.mapping nodeOrder part,
        (lazyPreprocessing g part (2 ^ l) s nodes0 mapping0 slot0).2.2, rs) := by
    unfold extendLazy
    rw [hpads, hpd]
    rfl
  rw [hun]
  clear hun hpads
  generalize lazyPreprocessing g part (2 ^ l) s nodes0 mapping0 slot0 = pre at *
  have hblk := fun b (hb : b < 2 ^ l) => lazyBlock_spec hwf hp hk hl hd hbip map0 (off := pre.1) (ne := pre.2.1)
    hbk hb (hpad b hb) (hlist b hb) (hlt b) (hnb b hb) (hne b) (mem b) (tmp b)
  have hmap := mapM_some (l := List.range (2 ^ l)) (f := fun b => lazyBlock g part (2 ^ l) inputK desiredK bip map0 pad
      pre.1 pre.2.1 pre.2.2 (mem b) (tmp b) b)
    (h := fun b => (lazyBlock g part (2 ^ l) inputK desiredK bip map0 pad
      pre.1 pre.2.1 pre.2.2 (mem b) (tmp b) b).getD ([], true)) (fun b hb => by
        obtain ⟨ok, h, _⟩ := hblk b (List.mem_range.1 hb)
        simp only [h]
        rfl)
  rw [hmap]
  obtain ⟨q1, q2, q3, q4⟩ := labels_final hpart hd hpad
    (lab := fun b => label bip (subK (2 ^ l) inputK desiredK pad b) (rows g part pre.2.2.mapping b (ns b)) b (2 ^ l) 0
      (subK (2 ^ l) inputK desiredK pad b))
    (sub := fun b => (((List.range (2 ^ l)).map fun b => (lazyBlock g part (2 ^ l) inputK desiredK bip map0 pad
      pre.1 pre.2.1 pre.2.2 (mem b) (tmp b) b).getD ([], true)).getD b ([], true)).1) (mapping := pre.2.2.mapping)
    (len := fun b => (ns b).length)
    (fun b hb => by
      rw [getD_range_map _ _ hb]
      obtain ⟨ok, h, _⟩ := hblk b hb
      rw [h]
      rfl)
    (fun u hu => by
      have := (rows_induced hbk (part u)).lt u hu rfl
      rwa [length_rows] at this)
    (fun b i hb => by
      have := label_range bip (subK (2 ^ l) inputK desiredK pad b) (rows g part pre.2.2.mapping b (ns b)) b (2 ^ l) 0
        (subK (2 ^ l) inputK desiredK pad b) i (subK_pos hl hd hb (hpad b hb))
      omega) hno
  refine ⟨_, _, _, pad, fun b => rows g part pre.2.2.mapping b (ns b), rfl,
    fun b hb => by rw [hpad b hb]; exact finalKRoot_eq hk hl hb, fun b _ => rows_induced hbk b, q3, ?_, ?_, ?_⟩
  · intro u hu
    have := q2 u hu
    rw [psum_succ] at this
    exact this
  · intro u v hu hv
    rw [q4 u v hu hv]
    constructor
    · rintro ⟨h1, h2⟩
      refine ⟨h1, ?_⟩
      rw [← h1] at h2
      exact (label_path bip _ _ _ _ _ _ _ _ (subK_pos hl hd (hpart u hu) (hpad _ (hpart u hu))) (Nat.le_refl _)).1 h2
    · rintro ⟨h1, h2⟩
      refine ⟨h1, ?_⟩
      rw [← h1]
      exact (label_path bip _ _ _ _ _ _ _ _ (subK_pos hl hd (hpart u hu) (hpad _ (hpart u hu))) (Nat.le_refl _)).2 h2
  · intro h q hq
    obtain ⟨b, hb, rfl⟩ := List.mem_map.1 hq
    obtain ⟨ok, e, hok⟩ := hblk b (List.mem_range.1 hb)
    rw [e]
    exact hok (h b).1 (h b).2.1 (h b).2.2

-- non-vacuity: as above, with lazy extraction
example :
    (let part : Nat → Nat := fun u => u / 2
     let bip : LGraph → Nat → Nat → Nat → Nat := fun g _ _ u => if u + 1 = g.length then 1 else 0
     ((extendLazy path4 part 2 3 3 bip id (seqSched 4 2 part) id id id (fun _ => ⟨fun _ => 0, ⟨0, 0, 0, 0⟩, true⟩)
       (fun _ => ⟨fun _ => 0, ⟨0, 0, 0, 0⟩, true⟩) [2, 0, 3, 1]).map fun r => ((List.range 4).map r.1, r.2.2.map (·.2))) =
       some ([0, 1, 2, 2], [true, true])) ∧ WeightRoom path4 ⟨0, 0, 0, 0⟩ := by
  refine ⟨by decide +kernel, fun _ => Nat.le_refl _, fun _ => Nat.le_refl _⟩

/-! ## C31: completing a partial level -/

/-- **C31 (completing a level; partial).** If the next power of two is not above the final number of blocks, the
completion of a partial level reserves exactly `desired_k = 2^(l+1)` labels.  Missing: the case in which the final
number of blocks is below the next power of two, in which it is false (`C31_complete_level_not_valid`). -/
theorem C31_complete_level_partial {l currentK inputK : Nat} (h1 : 2 ^ l < currentK) (h2 : currentK < 2 ^ (l + 1))
    (h3 : 2 ^ (l + 1) ≤ inputK) (hk : inputK < 2 ^ 31) :
    partialDesired currentK inputK = 2 ^ (l + 1) ∧ partialOffsets currentK inputK currentK = 2 ^ (l + 1) ∧
    ∀ b, b < currentK → partialOffsets currentK inputK (b + 1) =
      partialOffsets currentK inputK b + if b < 2 * (currentK - 2 ^ l) then 1 else 2 := by
  have hlog : Nat.log2 currentK = l := by
    rw [Nat.log2_eq_iff (by have := Nat.two_pow_pos l; omega)]
    omega
  have hpw : 2 ^ (l + 1) = 2 * 2 ^ l := by rw [Nat.pow_succ]; omega
  have hoff : ∀ b, b ≤ currentK → partialOffsets currentK inputK b =
      psum (fun b => if b < 2 * (currentK - 2 ^ l) then 1 else 2) b := by
    intro b hb
    unfold partialOffsets
    rw [hlog, offsets_eq _ hb]
    apply psum_congr
    intro i hi
    split
    · rfl
    · have hlt : i - (currentK - 2 ^ l) < 2 ^ l := by omega
      rw [finalKRoot_eq hk (by omega) hlt, Option.getD_some, treeLabel_eq _ _ _ hlt]
      have : 2 ≤ inputK / 2 ^ l := (Nat.le_div_iff_mul_le (Nat.two_pow_pos l)).2 (by omega)
      omega
  have hsum : ∀ b c, psum (fun b => if b < c then 1 else 2) b + min b c = 2 * b := by
    intro b c
    induction b with
    | zero => simp [psum]
    | succ b ih =>
      rw [psum_succ]
      split <;> omega
  refine ⟨?_, ?_, ?_⟩
  · unfold partialDesired
    dsimp only
    rw [hlog, if_neg (by omega)]
    omega
  · rw [hoff _ (Nat.le_refl _)]
    have := hsum currentK (2 * (currentK - 2 ^ l))
    omega
  · intro b hb
    rw [hoff _ (by omega), hoff _ (by omega), psum_succ]

example : partialDesired 5 9 = 8 ∧ (List.range 6).map (partialOffsets 5 9) = [0, 1, 2, 4, 6, 8] := by decide +kernel

/-- **C31 (completing a level) does not hold in general**: with 10 blocks of an intended 11, the completion
creates a partition with 11 blocks, but block 9 gets the labels from 11 on. -/
theorem C31_complete_level_not_valid :
    partialDesired 10 11 = 11 ∧ partialOffsets 10 11 9 = 11 ∧ partialOffsets 10 11 10 = 12 := by decide +kernel

end Verif.Subgraph.Props
