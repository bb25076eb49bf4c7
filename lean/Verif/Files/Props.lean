import Verif.Files.Partition

/-!
# C60: graph and partition files

The format of graph files is specified in `Verif/Files/Spec.lean`.
-/

namespace Verif.Files
open Verif.Math Verif.CsrGraph

/-! ## Specification -/

/-- The types are at most 64 bits wide. -/
structure Widths.Ok (w : Widths) : Prop where
  node : w.node ≤ 64
  edge : w.edge ≤ 64
  nw : w.nw ≤ 64
  ew : w.ew ≤ 64
  block : w.block ≤ 64

/-- The graph fits into the types: it has as many edges as the header promises, all neighbours exist, all weights
are positive (1 if the file has none), and node IDs, edge IDs and the total weights are representable, the totals
also in the ID types. -/
structure Storable (w : Widths) (d : Desc) (m : Nat) (hasNw hasEw : Bool) : Prop where
  edges : d.edges = 2 * m
  maxN : d.length < 2 ^ w.node
  maxM : 2 * m < 2 ^ w.edge
  targets : ∀ x ∈ d, ∀ y ∈ x.2, y.1 < d.length
  nodeWeights : ∀ x ∈ d, 1 ≤ x.1 ∧ (hasNw = false → x.1 = 1)
  edgeWeights : ∀ x ∈ d, ∀ y ∈ x.2, 1 ≤ y.2 ∧ (hasEw = false → y.2 = 1)
  totalNw : (d.map fun x => x.1).sum < 2 ^ (w.nw - 1) ∧ (d.map fun x => x.1).sum < 2 ^ w.node
  totalEw : (d.map fun x => (x.2.map fun y => y.2).sum).sum < 2 ^ (w.ew - 1) ∧
    (d.map fun x => (x.2.map fun y => y.2).sum).sum < 2 ^ w.edge

/-- What the assertions of debug builds demand in addition: no self loops, and no more edges than a simple graph
can have (the product is computed with 64 bits). -/
structure Simple (d : Desc) (m : Nat) : Prop where
  noLoops : ∀ (u : Nat) (x : Nat × List (Nat × Nat)), d[u]? = some x → ∀ y ∈ x.2, y.1 ≠ u
  few : m ≤ d.length * (d.length - 1) / 2
  size : d.length ≤ 2 ^ 32

/-- A graph data structure shows the described graph. -/
structure Shows (d : Desc) (g : G) : Prop where
  n : g.n = d.length
  m : g.m = d.edges
  nodeWeight : ∀ (u : Nat) (x : Nat × List (Nat × Nat)), d[u]? = some x → g.nodeWeight u = x.1
  adjacent : ∀ (u : Nat) (x : Nat × List (Nat × Nat)), d[u]? = some x →
    g.adjacentNodes u = x.2.map fun y => (y.1, (y.2 : Int))

/-- The reductions of the constructor visit all elements of the arrays. -/
structure Covers (s : Scheds) (a : Input) : Prop where
  nw : s.nw.covers 0 a.nw.size
  ew : s.ew.covers 0 a.ew.size
  deg : s.deg.covers 0 (a.nodes.size - 1)

/-- The graph that the constructor builds from the arrays shows `d`, however its reductions are scheduled; it
does not fail for graphs that are not sorted by degree buckets. -/
def Yields (d : Desc) (a : Input) : Prop :=
  ∀ (lowest : Int) (sorted : Bool) (s : Scheds), lowest ≤ 1 → Covers s a →
    (sorted = false → build lowest a.nodes a.edges a.nw a.ew sorted s ≠ none) ∧
    ∀ g, build lowest a.nodes a.edges a.nw a.ew sorted s = some g → Shows d g

/-! ## Proofs -/

theorem mem_flat {d : Desc} {y : Nat × Nat} (h : y ∈ d.flat) : ∃ x ∈ d, y ∈ x.2 := List.mem_flatMap.1 h

theorem le_sum_of_mem {l : List Nat} {a : Nat} (h : a ∈ l) : a ≤ l.sum := by
  induction l with
  | nil => cases h
  | cons b l ih =>
    rcases List.mem_cons.1 h with rfl | h
    · simp
    · have := ih h; simp; omega

theorem flat_sum (d : Desc) : (d.flat.map fun y => y.2).sum = (d.map fun x => (x.2.map fun y => y.2).sum).sum := by
  induction d with
  | nil => rfl
  | cons x d ih =>
    have : Desc.flat (x :: d) = x.2 ++ Desc.flat d := by simp [Desc.flat]
    rw [this, List.map_append, List.sum_append, ih]
    simp

theorem Storable.nodeLt {w : Widths} {d : Desc} {m : Nat} {hasNw hasEw : Bool} (hs : Storable w d m hasNw hasEw)
    {x : Nat × List (Nat × Nat)} (hx : x ∈ d) : x.1 < 2 ^ (w.nw - 1) :=
  lt_of_le_of_lt (le_sum_of_mem (List.mem_map_of_mem (f := fun x => x.1) hx)) hs.totalNw.1

theorem Storable.edgeLt {w : Widths} {d : Desc} {m : Nat} {hasNw hasEw : Bool} (hs : Storable w d m hasNw hasEw)
    {y : Nat × Nat} (hy : y ∈ d.flat) : y.2 < 2 ^ (w.ew - 1) :=
  lt_of_le_of_lt (le_sum_of_mem (List.mem_map_of_mem (f := fun y => y.2) hy)) (by rw [flat_sum]; exact hs.totalEw.1)

theorem pow_le64 {b : Nat} (h : b ≤ 64) : 2 ^ b ≤ 2 ^ 64 := Nat.pow_le_pow_right (by decide) h

theorem Storable.fits {w : Widths} (hw : w.Ok) {d : Desc} {m : Nat} {hasNw hasEw : Bool}
    (hs : Storable w d m hasNw hasEw) : Fits w ⟨d.length, m, hasNw, hasEw⟩ d where
  n := rfl
  m := hs.edges
  node := hs.maxN
  edge := hs.maxM
  targets := fun y hy => by obtain ⟨x, hx, h⟩ := mem_flat hy; exact hs.targets x hx y h
  nw := fun _ x hx => ⟨(hs.nodeWeights x hx).1, hs.nodeLt hx⟩
  ew := fun _ y hy => by
    obtain ⟨x, hx, h⟩ := mem_flat hy
    exact ⟨(hs.edgeWeights x hx y h).1, hs.edgeLt hy⟩
  sumNw := fun _ => lt_of_lt_of_le hs.totalNw.2 (pow_le64 hw.node)
  sumEw := fun _ => by rw [flat_sum]; exact lt_of_lt_of_le hs.totalEw.2 (pow_le64 hw.edge)

theorem Storable.header {w : Widths} (hw : w.Ok) {d : Desc} {m : Nat} {hasNw hasEw dbg : Bool}
    (hs : Storable w d m hasNw hasEw) (hd : dbg = true → Simple d m) : HeaderOk w dbg d.length m where
  n64 := lt_of_lt_of_le hs.maxN (pow_le64 hw.node)
  m64 := by have := hs.maxM; have := pow_le64 hw.edge; omega
  maxN := fun _ => by have := hs.maxN; omega
  maxM := fun _ => by have := hs.maxM; omega
  few := fun h => by
    obtain ⟨-, h2, h3⟩ := hd h
    by_cases h0 : d.length = 0
    · rw [h0] at h2 ⊢; simpa using h2
    · rw [subW_of_le (by omega) (by omega), Nat.mod_eq_of_lt]
      · exact h2
      · calc d.length * (d.length - 1) ≤ 2 ^ 32 * (2 ^ 32 - 1) := Nat.mul_le_mul h3 (by omega)
          _ < 2 ^ 64 := by decide

theorem Storable.nodesOk {w : Widths} (hw : w.Ok) {d : Desc} {m : Nat} {hasNw hasEw dbg : Bool}
    (hs : Storable w d m hasNw hasEw) (hd : dbg = true → Simple d m) (i : Nat) (x : Nat × List (Nat × Nat))
    (hx : d[i]? = some x) : NodeOk w dbg ⟨d.length, m, hasNw, hasEw⟩ i x := by
  have hm : x ∈ d := List.mem_of_getElem? hx
  have hf : ∀ y ∈ x.2, y ∈ d.flat := fun y hy => List.mem_flatMap.2 ⟨x, hm, hy⟩
  refine ⟨⟨?_, (hs.nodeWeights x hm).2, fun _ _ => ⟨(hs.nodeWeights x hm).1, ?_⟩⟩,
    fun y hy => ⟨?_, (hs.edgeWeights x hm y hy).2, fun _ _ => ⟨(hs.edgeWeights x hm y hy).1, ?_⟩⟩, fun y hy => ?_,
    fun _ y hy => hs.targets x hm y hy, fun h y hy => ((hd h).noLoops i x hx y hy).symm⟩
  · exact lt_of_lt_of_le (hs.nodeLt hm) (Nat.pow_le_pow_right (by decide) (by have := hw.nw; omega))
  · have := hs.nodeLt hm; omega
  · exact lt_of_lt_of_le (hs.edgeLt (hf y hy)) (Nat.pow_le_pow_right (by decide) (by have := hw.ew; omega))
  · have := hs.edgeLt (hf y hy); omega
  · have := hs.targets x hm y hy
    have := lt_of_lt_of_le hs.maxN (pow_le64 hw.node)
    omega

theorem toSigned64 {b x : Nat} (hb : b ≤ 64) (h : x < 2 ^ (b - 1)) : toSigned 64 x ≤ 2 ^ (b - 1) - 1 := by
  rw [toSigned_of_lt (lt_of_lt_of_le h (Nat.pow_le_pow_right (by decide) (by omega)))]
  have : (x : Int) < ((2 ^ (b - 1) : Nat) : Int) := by exact_mod_cast h
  push_cast at this
  omega

theorem read_ok {w : Widths} (hw : w.Ok) {d : Desc} {m : Nat} {hasNw hasEw dbg : Bool}
    (hs : Storable w d m hasNw hasEw) (junk : Junk) :
    ∃ s a, feed (Csr.node w ⟨d.length, m, hasNw, hasEw⟩) (Csr.edge w ⟨d.length, m, hasNw, hasEw⟩) d
        (Csr.init ⟨d.length, m, hasNw, hasEw⟩ junk) = .ok s ∧
      s.finish w dbg ⟨d.length, m, hasNw, hasEw⟩ = .ok a ∧ Represents d a := by
  obtain ⟨s, h1, h2⟩ := feed_ok (hs.fits hw) d [] _ rfl (inv_init _ junk)
  have p1 := Nat.two_pow_pos (w.nw - 1)
  have p2 := Nat.two_pow_pos (w.ew - 1)
  obtain ⟨a, h3, h4⟩ := finish_ok (dbg := dbg) (hs.fits hw) h2 (fun h x hx => (hs.nodeWeights x hx).2 h)
    (fun h y hy => by obtain ⟨x, hx, hy⟩ := mem_flat hy; exact (hs.edgeWeights x hx y hy).2 h)
    (fun _ => hs.totalNw.2) (fun _ => by rw [flat_sum]; exact hs.totalEw.2)
    (fun _ => toSigned64 hw.nw (by
      cases hasNw with
      | true => rw [h2.totalNw rfl]; exact hs.totalNw.1
      | false => rw [h2.noNw rfl]; exact p1))
    (fun _ => toSigned64 hw.ew (by
      cases hasEw with
      | true => rw [h2.totalEw rfl, flat_sum]; exact hs.totalEw.1
      | false => rw [h2.noEw rfl]; exact p2))
  exact ⟨s, a, h1, h3, h4⟩

theorem yields_of {d : Desc} {a : Input} (h : Represents d a) : Yields d a := by
  intro lowest sorted s hl hc
  refine ⟨fun hsorted => by subst hsorted; simp [build, initDegreeBuckets], fun g hg => ?_⟩
  have hn : a.nodes.size - 1 = d.length := by rw [h.n]; rfl
  have hoff : ∀ u, u ≤ d.length → a.nodes.data u = Desc.edges (d.take u) := by
    intro u
    induction u with
    | zero => intro _; rw [h.first]; rfl
    | succ u ih =>
      intro hu
      have hx := List.getElem?_eq_getElem (l := d) (i := u) (by omega)
      rw [h.degree u _ hx, ih (by omega), take_succ_edges hx]
  have hdeg : ∀ u, u < d.length → ∃ x, d[u]? = some x ∧ a.nodes.data (u + 1) = a.nodes.data u + x.2.length :=
    fun u hu => ⟨_, List.getElem?_eq_getElem hu, h.degree u _ (List.getElem?_eq_getElem hu)⟩
  obtain ⟨h1, -⟩ := C26_accessors_partial lowest a.nodes a.edges a.nw a.ew sorted s g hg (by rw [hn]; exact h.wNw)
    (by rw [h.m]; exact h.wEw) hl
    (fun u hu => by obtain ⟨x, -, e⟩ := hdeg u (by omega); omega)
    (fun u hu => by rw [h.m, hoff (u + 1) (by omega)]; exact edges_take_le d (u + 1))
    hc.nw hc.ew hc.deg
  have hlt : ∀ {u : Nat} {x : Nat × List (Nat × Nat)}, d[u]? = some x → u < g.n := by
    intro u x hx
    rw [h1.n, hn]
    exact (List.getElem?_eq_some_iff.1 hx).1
  refine ⟨by rw [h1.n, hn], by rw [h1.m, h.m], fun u x hx => ?_, fun u x hx => ?_⟩
  · rw [h1.nodeWeight u (hlt hx), h.nw u x hx]
  · rw [h1.adjacent u (hlt hx), h1.degree u (hlt hx), h.degree u x hx, Nat.add_sub_cancel_left]
    exact h.adj u x hx

/-! ## Reading graphs -/

/-- **C60, reading a graph.**  For every METIS file of a graph that fits into the types, with arbitrary comments
and spaces, with and without weights, in debug and release builds and for every page size that does not divide the
length of the file: the file is read without an exception or undefined behaviour, and the graph built from it,
under every schedule of the reductions of its constructor, has the described nodes, node weights and neighbours with
edge weights, in the order of the file. -/
theorem C60_metis_read_partial (w : Widths) (hw : w.Ok) (dbg : Bool) (page : Nat) (junk : Junk) (file : List Char)
    (d : Desc) (m : Nat) (hasNw hasEw : Bool) (hf : IsMetis d m hasNw hasEw file) (hs : Storable w d m hasNw hasEw)
    (hd : dbg = true → Simple d m) (hpage : 0 < page) (hlen : ¬ page ∣ file.length) :
    ∃ a, csrRead w dbg page junk file = .ok a ∧ Yields d a := by
  have hne : file ≠ [] := by rintro rfl; exact hlen (dvd_zero _)
  have hsl : 0 < (page - file.length % page) % page := by
    have h1 : file.length % page ≠ 0 := fun h => hlen (Nat.dvd_of_mod_eq_zero h)
    have h2 := Nat.mod_lt file.length hpage
    rw [Nat.mod_eq_of_lt (by omega)]
    omega
  obtain ⟨t, h1, h2⟩ := parse_ok (σ := Csr) hf (hs.header hw hd) _ (hs.nodesOk hw hd) hsl
  obtain ⟨s, a, h3, h4, h5⟩ := read_ok (dbg := dbg) hw hs junk
  refine ⟨a, ?_, yields_of h5⟩
  unfold csrRead
  rw [open_ok hne, ok_bind, h1]
  simp only [ok_bind]
  rw [h2, h3, ok_bind, h4]

/-- **C60, negative.**  The parser looks at the character behind the last line: if the length of a file without
trailing comments is a multiple of the page size, it reads behind the memory to which the file is mapped. -/
theorem C60_page_multiple_not_readable (w : Widths) (hw : w.Ok) (dbg : Bool) (page : Nat) (junk : Junk)
    (head body : List Char) (xs : List Nat) (d : Desc) (m : Nat) (hasNw hasEw : Bool)
    (h1 : IsHeader d.length m hasNw hasEw xs) (h2 : IsLine xs head) (h3 : IsBody hasNw hasEw d body)
    (hs : Storable w d m hasNw hasEw) (hd : dbg = true → Simple d m)
    (hlen : page ∣ (head ++ '\n' :: body).length) :
    csrRead w dbg page junk (head ++ '\n' :: body) = .error .undefined := by
  obtain ⟨t, p1, p2⟩ := parse_end (σ := Csr) h1 h2 h3 (hs.header hw hd) (hs.nodesOk hw hd)
  obtain ⟨s, a, h4, -⟩ := read_ok (dbg := dbg) hw hs junk
  unfold csrRead
  rw [open_ok (by simp), ok_bind, Nat.mod_eq_zero_of_dvd hlen, Nat.sub_zero, Nat.mod_self, p1]
  simp only [ok_bind]
  rw [p2 _ _ _ _ h4]
  rfl

/-! ## Round trips -/

/-- **C60, round trip of graphs.**  A graph that was written to a METIS file is read back unchanged: the same
nodes, weights and neighbourhoods, in the same order. -/
theorem C60_metis_roundtrip_partial (w : Widths) (hw : w.Ok) (dbg : Bool) (page : Nat) (junk : Junk) (g : Graph)
    (m : Nat) (nwd ewd : Bool) (hwf : g.WF) (heven : m % 2 = 0) (hs : Storable w (desc g) (m / 2) nwd ewd)
    (hnw : ∀ u, u < g.n → 0 ≤ g.w u) (hew : ∀ u, u < g.n → ∀ y ∈ g.adj u, 0 ≤ y.2)
    (hd : dbg = true → Simple (desc g) (m / 2)) (hpage : 0 < page)
    (hlen : ¬ page ∣ (writeMetis w g m nwd ewd).length) :
    ∃ a, csrRead w dbg page junk (writeMetis w g m nwd ewd) = .ok a ∧
      ∀ (lowest : Int) (s : Scheds), lowest ≤ 1 → Covers s a →
        ∃ g', build lowest a.nodes a.edges a.nw a.ew false s = some g' ∧ g'.n = g.n ∧ g'.m = m ∧
          ∀ u, u < g.n → g'.nodeWeight u = g.w u ∧ g'.adjacentNodes u = g.adj u := by
  have hlen' : (desc g).length = g.n := by simp [desc]
  obtain ⟨a, h1, h2⟩ := C60_metis_read_partial w hw dbg page junk _ (desc g) (m / 2) nwd ewd
    (write_isMetis hwf (by rw [← hlen']; exact hs.maxN) (fun _ => hnw) (fun _ => hew)) hs hd hpage hlen
  refine ⟨a, h1, fun lowest s hl hc => ?_⟩
  obtain ⟨h3, h4⟩ := h2 lowest false s hl hc
  cases hb : build lowest a.nodes a.edges a.nw a.ew false s with
  | none => exact absurd hb (h3 rfl)
  | some g' =>
    obtain ⟨e1, e2, e3, e4⟩ := h4 g' hb
    refine ⟨g', rfl, by rw [e1, hlen'], by rw [e2, hs.edges]; omega, fun u hu => ?_⟩
    have hx : (desc g)[u]? = some ((g.w u).toNat, (g.adj u).map fun y => (y.1, y.2.toNat)) := by
      simp [desc, hu]
    refine ⟨by rw [e3 u _ hx]; exact Int.toNat_of_nonneg (hnw u hu), ?_⟩
    rw [e4 u _ hx, List.map_map]
    conv_rhs => rw [← List.map_id (g.adj u)]
    apply List.map_congr_left
    intro y hy
    have := hew u hu y hy
    simp [Int.toNat_of_nonneg this]

/-- **C60, reading into a compressed graph.**  For every METIS file of a graph with at least one node, the
builder of the compressed graph gets the number of nodes and edges, every node exactly once, in order, with its
neighbours and edge weights, and the node weights. -/
theorem C60_compress_read_partial (w : Widths) (hw : w.Ok) (dbg : Bool) (page : Nat) (file : List Char)
    (d : Desc) (m : Nat) (hasNw hasEw : Bool) (hf : IsMetis d m hasNw hasEw file) (hs : Storable w d m hasNw hasEw)
    (hd : dbg = true → Simple d m) (hpage : 0 < page) (hlen : ¬ page ∣ file.length) (hn : d ≠ []) :
    ∃ b, compressRead w dbg page file = .ok b ∧ b.n = d.length ∧ b.m = d.edges ∧
      b.nodes = d.mapIdx (fun u x => (u, x.2.map fun y => (y.1, (y.2 : Int)))) ∧
      b.weights = if hasNw then d.mapIdx (fun u x => (u, (x.1 : Int))) else [] := by
  have hne : file ≠ [] := by rintro rfl; exact hlen (dvd_zero _)
  have hsl : 0 < (page - file.length % page) % page := by
    have h1 : file.length % page ≠ 0 := fun h => hlen (Nat.dvd_of_mod_eq_zero h)
    have h2 := Nat.mod_lt file.length hpage
    rw [Nat.mod_eq_of_lt (by omega)]
    omega
  obtain ⟨t, h1, h2⟩ := parse_ok (σ := Comp) hf (hs.header hw hd) _ (hs.nodesOk hw hd) hsl
  have hfit := hs.fits hw
  have e1 : toUnsigned w.node d.length = d.length := Nat.mod_eq_of_lt hs.maxN
  have e2 : toUnsigned w.edge (2 * m) = 2 * m := Nat.mod_eq_of_lt hs.maxM
  obtain ⟨s, h3, h4⟩ := cfeed_ok (w := w) (h := ⟨d.length, m, hasNw, hasEw⟩) rfl hs.maxN hfit.targets
    (fun _ x hx => hs.nodeLt hx) (fun y hy => hs.edgeLt hy) d []
    { builder := { n := toUnsigned w.node d.length, m := toUnsigned w.edge (2 * m), nodes := [], weights := [] }
      nbh := [], node := 0, edge := 0 } rfl ⟨e1, e2, rfl, rfl, rfl, by cases hasNw <;> rfl⟩
  have hpos : 0 < d.length := List.length_pos_iff.2 hn
  have hlast : d.getLast? = some (d.getLast hn) := List.getLast?_eq_some_getLast hn
  unfold compressRead
  rw [open_ok hne, ok_bind, h1]
  simp only [ok_bind]
  rw [h2, h3, ok_bind, h4.node, subW_of_le (by omega) hs.maxN, Builder.addNode,
    if_pos (by rw [h4.n]; show d.length - 1 ≤ d.length; omega)]
  refine ⟨_, rfl, h4.n, by rw [hs.edges]; exact h4.m, ?_, h4.weights⟩
  show s.builder.nodes ++ [(d.length - 1, s.nbh)] = _
  rw [h4.nodes, h4.nbh, hlast]
  exact dropLast_append_getLast hlast hpos

/-- **C60, negative.**  Compressing a graph without nodes while it is read is undefined: node `0 - 1` is added. -/
theorem C60_compress_empty_undefined (w : Widths) (hw : w.Ok) (hpos : 0 < w.node) (dbg : Bool) (page : Nat)
    (file : List Char) (hf : IsMetis [] 0 false false file) (hpage : 0 < page) (hlen : ¬ page ∣ file.length) :
    compressRead w dbg page file = .error .undefined := by
  have hs : Storable w [] 0 false false := by
    have := fun b => Nat.two_pow_pos b
    exact ⟨rfl, this _, this _, (fun x h => nomatch h), (fun x h => nomatch h), (fun x h => nomatch h),
      ⟨this _, this _⟩, ⟨this _, this _⟩⟩
  have hd : dbg = true → Simple [] 0 := fun _ => ⟨fun u x h => by simp at h, by decide, by decide⟩
  have hne : file ≠ [] := by rintro rfl; exact hlen (dvd_zero _)
  have hsl : 0 < (page - file.length % page) % page := by
    have h1 : file.length % page ≠ 0 := fun h => hlen (Nat.dvd_of_mod_eq_zero h)
    have h2 := Nat.mod_lt file.length hpage
    rw [Nat.mod_eq_of_lt (by omega)]
    omega
  obtain ⟨t, h1, h2⟩ := parse_ok (σ := Comp) hf (hs.header hw hd) _ (hs.nodesOk hw hd) hsl
  have h2' : 2 ≤ 2 ^ w.node := by
    calc 2 = 2 ^ 1 := rfl
      _ ≤ 2 ^ w.node := Nat.pow_le_pow_right (by decide) hpos
  have e0 : toUnsigned w.node 0 = 0 := Nat.zero_mod _
  unfold compressRead
  rw [open_ok hne, ok_bind, h1]
  simp only [ok_bind]
  rw [h2]
  simp only [feed, ok_bind]
  rw [Builder.addNode, if_neg]
  simp only [List.length_nil, e0, subW]
  rw [Nat.zero_add, Nat.mod_eq_of_lt (by omega)]
  omega

/-! ## Partitions -/

/-- **C60, round trip of partitions.**  A partition of at least one node that was written to a file is read back
unchanged (the same functions write and read node mappings). -/
theorem C60_partition_roundtrip_partial (w : Widths) (hw : w.Ok) (dbg : Bool) (page : Nat) (part : List Nat)
    (hne : part ≠ []) (hlt : ∀ b ∈ part, b < 2 ^ w.block) :
    readPartition w dbg page (writePartition part) = .ok part := by
  unfold readPartition
  rw [open_ok (writePartition_ne_nil hne), ok_bind]
  exact readNumbers_ok hw.block _ part _ hlt (Nat.le_refl _)

/-- **C60, negative.**  The file of an empty partition cannot be read back: an exception is thrown. -/
theorem C60_empty_partition_not_readable (w : Widths) (dbg : Bool) (page : Nat) :
    readPartition w dbg page (writePartition []) = .error .thrown := rfl

/-- **C60, round trip of block sizes.**  Reading the file with the sizes of the `k` blocks of a partition yields
the partition with the same blocks sizes in which the nodes are sorted by their blocks. -/
theorem C60_block_sizes_roundtrip_partial (w : Widths) (hw : w.Ok) (dbg : Bool) (page : Nat) (k : Nat)
    (part : List Nat) (hk : 0 < k) (hkb : k < 2 ^ w.block) (hlt : ∀ b ∈ part, b < k)
    (h31 : part.length < 2 ^ 31) (hn : part.length < 2 ^ w.node) (hb : part.length < 2 ^ w.block) :
    ∃ file part', writeBlockSizes w k part = .ok file ∧ readBlockSizes w dbg page file = .ok part' ∧
      part'.Perm part ∧ part'.Pairwise (· ≤ ·) := by
  have hc := countBlocks_ok (w := w) (k := k) part [] (List.replicate k 0) hlt (by simpa using hn) (by
    apply List.ext_getElem (by simp)
    intro i h1 h2
    simp)
  rw [List.nil_append] at hc
  have hcount : ∀ b, part.count b ≤ part.length := fun b => List.count_le_length
  have hsizes : ((List.range k).map fun b => part.count b).map (toUnsigned w.block) =
      (List.range k).map fun b => part.count b := by
    rw [List.map_map]
    apply List.map_congr_left
    intro b _
    exact Nat.mod_eq_of_lt (lt_of_le_of_lt (hcount b) hb)
  have hne : ((List.range k).map fun b => part.count b) ≠ [] := by
    intro h
    have := congrArg List.length h
    simp at this
    omega
  refine ⟨writePartition ((List.range k).map fun b => part.count b), runs 0 ((List.range k).map fun b => part.count b),
    ?_, ?_, runs_perm hlt, runs_sorted _ _⟩
  · unfold writeBlockSizes
    rw [hc, ok_bind, hsizes]
    rfl
  · unfold readBlockSizes
    rw [open_ok (writePartition_ne_nil hne), ok_bind, readNumbers_ok hw.node _ _ _ (by
      intro x hx
      obtain ⟨b, -, rfl⟩ := List.mem_map.1 hx
      exact lt_of_le_of_lt (hcount b) hn) (Nat.le_refl _), ok_bind]
    have hsum := counts_sum hlt
    simp only []
    rw [sumInt_ok (by rw [hsum]; exact h31) (by rw [hsum]; exact hn), hsum]
    obtain ⟨part', h1, h2⟩ := fillBlocks_ok (w := w) hn ((List.range k).map fun b => part.count b) [] 0 (fun _ => 0)
      (by simpa using hsum) (by simpa using hkb) (fun i x h => by simp at h)
    rw [List.length_nil] at h1
    rw [h1, ok_bind]
    rw [List.nil_append] at h2
    show Except.ok _ = _
    congr 1
    apply List.ext_getElem
    · rw [runs_length, hsum]; simp
    · intro i h3 h4
      rw [List.getElem_map, List.getElem_range]
      exact h2 i _ (List.getElem?_eq_getElem h4)

/-! ## Non-vacuity -/

/-- The default configuration: 32-bit types. -/
def w32 : Widths := ⟨32, 32, 32, 32, 32⟩

theorem w32_ok : w32.Ok := ⟨by decide, by decide, by decide, by decide, by decide⟩

/-- A path of three nodes with node and edge weights. -/
def path3 : Graph where
  n := 3
  w := fun u => if u = 0 then 4 else if u = 1 then 1 else 2
  adj := fun u => if u = 0 then [(1, 5)] else if u = 1 then [(0, 5), (2, 1)] else [(1, 1)]

theorem path3_wf : path3.WF := by
  have h : ∀ u, u < 3 → ∀ e ∈ path3.adj u, e.1 < 3 := by decide
  exact h

theorem path3_storable : Storable w32 (desc path3) (4 / 2) true true :=
  ⟨by decide, by decide, by decide, by decide, by decide, by decide, by decide, by decide⟩

theorem path3_simple : Simple (desc path3) (4 / 2) := by
  refine ⟨fun u x hx => ?_, by decide, by decide⟩
  have hu : u < 3 := (List.getElem?_eq_some_iff.1 hx).1
  have h : ∀ u, u < 3 → ∀ x ∈ (desc path3)[u]?, ∀ y ∈ x.2, y.1 ≠ u := by decide +kernel
  exact h u hu x hx

example : writeMetis w32 path3 4 true true = "3 2 11\n4 2 5 \n1 1 5 3 1 \n2 2 1 \n".toList := by decide +kernel

/-- The written path meets the hypotheses of `C60_metis_roundtrip_partial` and `C60_metis_read_partial`. -/
example (junk : Junk) := C60_metis_roundtrip_partial w32 w32_ok true 4096 junk path3 4 true true path3_wf rfl
  path3_storable (by decide) (by decide) (fun _ => path3_simple) (by decide) (by decide +kernel)

/-- Comments, additional spaces and a last line without a line break. -/
example : IsMetis [(1, [(1, 1)]), (1, [(0, 1)])] 1 false false "% c\n 2  1\n2 \n%\n1".toList := by
  refine ⟨[2, 1], "% c\n 2  1".toList, "2 \n".toList, "%\n1".toList, rfl, Or.inr ⟨rfl, rfl, rfl⟩,
    ⟨"% c\n".toList, [' '], "2  1".toList, rfl, ?_, by simp [IsBlank], ?_⟩,
    Or.inr ⟨[(1, [(1, 1)])], (1, [(0, 1)]), rfl, ?_, by decide, "%\n".toList, [], ['1'], rfl, ?_, by simp [IsBlank], ?_⟩⟩
  · exact IsComments.cons (sp := []) (body := [' ', 'c']) (rest := []) (by simp [IsBlank]) (by decide) .nil
  · exact IsFields.cons (num := ['2']) (sp := [' ', ' ']) (rest := ['1']) (.one .d2) (by simp [IsBlank]) (by simp)
      (IsFields.cons (num := ['1']) (sp := []) (rest := []) (.one .d1) (by simp [IsBlank]) (by simp) .nil)
  · exact IsBody.cons (s := ['2', ' ']) (rest := []) ⟨[], [], ['2', ' '], rfl, .nil, by simp [IsBlank],
      IsFields.cons (num := ['2']) (sp := [' ']) (rest := []) (.one .d2) (by simp [IsBlank]) (by simp) .nil⟩ .nil
  · exact IsComments.cons (sp := []) (body := []) (rest := []) (by simp [IsBlank]) (by decide) .nil
  · exact IsFields.cons (num := ['1']) (sp := []) (rest := []) (.one .d1) (by simp [IsBlank]) (by simp) .nil

/-- The arrays that were read, if any. -/
def Res.arrays (r : Res Input) : Except Fault (List Nat × List Nat × List Int × List Int) :=
  r.map fun a => ((List.range a.nodes.size).map a.nodes.data, (List.range a.edges.size).map a.edges.data,
    (List.range a.nw.size).map a.nw.data, (List.range a.ew.size).map a.ew.data)

/-- Uninitialised memory that contains sevens. -/
def sevens : Junk := ⟨fun _ => 7, fun _ => 7, fun _ => 7, fun _ => 7⟩

instance {α : Type} [DecidableEq α] : DecidableEq (Except Fault α)
  | .ok a, .ok b => if h : a = b then isTrue (by rw [h]) else isFalse fun e => h (Except.ok.inj e)
  | .error a, .error b => if h : a = b then isTrue (by rw [h]) else isFalse fun e => h (Except.error.inj e)
  | .ok _, .error _ => isFalse fun e => nomatch e
  | .error _, .ok _ => isFalse fun e => nomatch e

example : Res.arrays (csrRead w32 true 4096 sevens "%c\n 3 2 11\n4 2 5 \n% x\n1 1 5  3 1\n2 2 1\n%end\n".toList) =
    .ok ([0, 1, 3, 4], [1, 0, 2, 1], [4, 1, 2], [5, 5, 1, 1]) := by decide +kernel

example : compressRead w32 true 4096 "3 2 11\n4 2 5 \n1 1 5 3 1\n2 2 1\n".toList =
    .ok ⟨3, 4, [(0, [(1, 5)]), (1, [(0, 5), (2, 1)]), (2, [(1, 1)])], [(0, 4), (1, 1), (2, 2)]⟩ := by decide +kernel

example := C60_compress_empty_undefined w32 w32_ok (by decide) true 4096 "0 0\n".toList
  ⟨[0, 0], "0 0".toList, [], [], rfl, Or.inr ⟨rfl, rfl, rfl⟩, ⟨[], [], "0 0".toList, rfl, .nil, by simp [IsBlank],
    IsFields.cons (num := ['0']) (sp := [' ']) (rest := ['0']) (.one .d0) (by simp [IsBlank]) (by simp)
      (IsFields.cons (num := ['0']) (sp := []) (rest := []) (.one .d0) (by simp [IsBlank]) (by simp) .nil)⟩,
    Or.inl ⟨.nil, .nil⟩⟩ (by decide) (by decide)

example : readPartition w32 true 4096 (writePartition [1, 0, 12, 1]) = .ok [1, 0, 12, 1] :=
  C60_partition_roundtrip_partial w32 w32_ok true 4096 _ (by decide) (by decide)

example : (writeBlockSizes w32 3 [2, 0, 2, 0, 2], readBlockSizes w32 true 4096 "2\n0\n3\n".toList) =
    (.ok "2\n0\n3\n".toList, .ok [0, 0, 2, 2, 2]) := by decide +kernel

example := C60_block_sizes_roundtrip_partial w32 w32_ok true 4096 3 [2, 0, 2, 0, 2] (by decide) (by decide) (by decide)
  (by decide) (by decide) (by decide)

/-! ## What the readers do not do -/

/-- **C60, negative.**  For every page size from 5 bytes on there is a METIS file of a graph with one node that
cannot be read. -/
theorem C60_unreadable_file_exists (w : Widths) (hw : w.Ok) (hpos : 2 ≤ w.node ∧ 2 ≤ w.nw) (dbg : Bool) (junk : Junk)
    (page : Nat) (hpage : 5 ≤ page) :
    ∃ file, IsMetis [(1, [])] 0 false false file ∧ csrRead w dbg page junk file = .error .undefined := by
  have hblank : IsBlank (List.replicate (page - 5) ' ') := fun c hc => List.eq_of_mem_replicate hc
  have hline : IsLine [1, 0] (['1', ' ', '0'] ++ List.replicate (page - 5) ' ') := by
    refine ⟨[], [], _, rfl, .nil, blank_nil, ?_⟩
    have h0 := IsFields.cons (num := ['0']) (sp := List.replicate (page - 5) ' ') (rest := []) (.one .d0) hblank
      (by simp) .nil
    have h1 := IsFields.cons (num := ['1']) (sp := [' ']) (.one .d1) (by simp [IsBlank]) (by simp) h0
    simpa using h1
  have hbody : IsBody false false [(1, [])] ['\n'] :=
    IsBody.cons (s := []) (rest := []) ⟨[], [], [], rfl, .nil, blank_nil, .nil⟩ .nil
  have h4 : ∀ b, 2 ≤ b → 2 < 2 ^ b := fun b hb => by
    have := Nat.pow_le_pow_right (n := 2) (by decide) hb
    omega
  have hs : Storable w [(1, [])] 0 false false := by
    have p1 := Nat.two_pow_pos w.edge
    have p2 := Nat.two_pow_pos (w.ew - 1)
    have p3 := Nat.pow_le_pow_right (n := 2) (by decide) (show 1 ≤ w.nw - 1 by omega)
    have p4 := h4 _ hpos.1
    refine ⟨rfl, ?_, p1, by simp, by simp, by simp, ⟨?_, ?_⟩, ⟨p2, p1⟩⟩
    · show 1 < _; omega
    · show 1 < _; omega
    · show 1 < _; omega
  refine ⟨_, ⟨[1, 0], _, ['\n'], [], by rw [List.append_nil], Or.inr ⟨rfl, rfl, rfl⟩, hline, Or.inl ⟨hbody, .nil⟩⟩,
    C60_page_multiple_not_readable w hw dbg page junk _ ['\n'] [1, 0] [(1, [])] 0 false false
      (Or.inr ⟨rfl, rfl, rfl⟩) hline hbody hs (fun _ => ⟨?_, by decide, by decide⟩) ?_⟩
  · intro u x hx y hy
    cases u with
    | zero => cases hx; cases hy
    | succ u => simp at hx
  · have : (['1', ' ', '0'] ++ List.replicate (page - 5) ' ' ++ '\n' :: ['\n']).length = page := by simp; omega
    rw [this]

/-- **C60, negative.**  More edges than the header promises: release builds write behind the end of an array. -/
theorem C60_too_many_edges_undefined :
    Res.arrays (csrRead w32 false 4096 sevens "2 0\n2\n1\n".toList) = .error .undefined := by decide +kernel

/-- **C60, negative.**  The warning that node sizes (format code 100) are ignored is wrong: they are taken for
neighbours, here such that the array of edges overflows. -/
theorem C60_node_sizes_not_ignored :
    Res.arrays (csrRead w32 false 4096 sevens "2 1 100\n2 2\n1 1\n".toList) = .error .undefined := by decide +kernel

/-- **C60, negative.**  Node weights 2 and 0 are taken for unit weights. -/
theorem C60_zero_weight_dropped :
    Res.arrays (csrRead w32 false 4096 sevens "2 0 10\n2\n0\n".toList) = .ok ([0, 0, 0], [], [], []) := by decide +kernel

/-- **C60, negative.**  With 64-bit weights and 32-bit IDs, the total weight is compared with the number of nodes
modulo 2^32: the weight of a single node of weight 4294967297 is dropped, even in debug builds. -/
theorem C60_large_weight_dropped :
    Res.arrays (csrRead ⟨32, 32, 64, 64, 32⟩ true 4096 sevens "1 0 10\n4294967297\n".toList) = .ok ([0, 0], [], [], []) := by
  decide +kernel

/-- **C60, negative.**  Lines that end with carriage return and line feed: a release build reads a different graph
without an error (the first node is isolated and an edge has an uninitialised target). -/
theorem C60_crlf_misread :
    Res.arrays (csrRead w32 false 4096 sevens "2 1\r\n2\r\n1\r\n".toList) = .ok ([0, 0, 1], [1, 7], [], []) := by
  decide +kernel

/-- **C60, negative.**  A file with fewer edges than promised is accepted by release builds; the graph contains
uninitialised memory. -/
theorem C60_missing_edges_uninitialised :
    Res.arrays (csrRead w32 false 4096 sevens "2 2\n2\n1\n".toList) = .ok ([0, 1, 2], [1, 0, 7, 7], [], []) := by
  decide +kernel

/-- **C60, negative.**  The sum of the block sizes is computed with 32 bits: with 64-bit node IDs, the sizes of a
partition of 2^32 + 5 nodes are not readable. -/
theorem C60_large_block_size_undefined :
    readBlockSizes ⟨64, 64, 64, 64, 32⟩ true 4096 "4294967301\n".toList = .error .undefined := by decide +kernel

end Verif.Files
