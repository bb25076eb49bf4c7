import Verif.Binary.Parhip
import Verif.CsrGraph.Props

/-!
# C61: graphs in ParHIP files
-/

namespace Verif.Binary
open Verif.Math Verif.CsrGraph Verif.Reduce Finset

/-! ## Specification -/

/-- The input arrays of a graph: offsets, targets, weights (`Verif.CsrGraph`, C26). -/
structure Input (nodes edges : Arr Nat) (nw ew : Arr Int) : Prop where
  nonempty : 0 < nodes.size
  nw : Weights nw (nodes.size - 1)
  ew : Weights ew edges.size
  mono : ∀ u, u < nodes.size - 1 → nodes.data u ≤ nodes.data (u + 1)
  last : ∀ u, u < nodes.size → nodes.data u ≤ edges.size

/-- IDs and weights are values of the types of the build, and the file is not too large for `std::size_t`. -/
structure Representable (b : Build) (nodes edges : Arr Nat) (nw ew : Arr Int) : Prop where
  ids : nodes.size < 2 ^ (8 * sz b.n64)
  targets : ∀ e, e < edges.size → edges.data e < 2 ^ (8 * sz b.n64)
  nw : ∀ u, u < nw.size → nw.data u < 2 ^ (8 * sz b.nw64 - 1)
  ew : ∀ e, e < ew.size → ew.data e < 2 ^ (8 * sz b.ew64 - 1)
  size : 24 + 16 * nodes.size + 16 * edges.size < 2 ^ 64

/-- No type of the reading build `b'` is narrower than that of the writing build. -/
structure NotNarrower (b b' : Build) (nw ew : Bool) : Prop where
  node : b.n64 = true → b'.n64 = true
  edge : b.e64 = true → b'.e64 = true
  nw : nw = true → b.nw64 = true → b'.nw64 = true
  ew : ew = true → b.ew64 = true → b'.ew64 = true

/-! ## Reading what was written -/

theorem wide_iff {b b' : Build} {g : G} : Wide b b' g ↔ NotNarrower b b' g.isNodeWeighted g.isEdgeWeighted :=
  ⟨fun h => ⟨h.1, h.2, h.3, h.4⟩, fun h => ⟨h.1, h.2, h.3, h.4⟩⟩

theorem unweighted_nw {nodes edges : Arr Nat} {nw ew : Arr Int} {g : G} (h : Agrees nodes edges nw ew g)
    (hw : g.isNodeWeighted = false) {u : Nat} (hu : u < nodes.size - 1) : weightAt nw u = 1 := by
  rw [← h.nodeWeight u (by rw [h.n]; exact hu), G.nodeWeight, hw]; rfl

theorem unweighted_ew {nodes edges : Arr Nat} {nw ew : Arr Int} {g : G} (h : Agrees nodes edges nw ew g)
    (hw : g.isEdgeWeighted = false) {e : Nat} (he : e < edges.size) : weightAt ew e = 1 := by
  rw [← h.edgeWeight e (by rw [h.m]; exact he), G.edgeWeight, hw]; rfl

theorem weighted_size {a : Arr Int} {n : Nat} (ha : Weights a n) {total : Int}
    (ht : total = ∑ i ∈ range n, weightAt a i) (hw : decide ((n : Int) ≠ total) = true) : a.size = n := by
  rcases ha.1 with h0 | h
  · simp [weightAt, h0] at ht
    simp [ht] at hw
  · exact h

theorem fits_of {b : Build} {nodes edges : Arr Nat} {nw ew : Arr Int} {g : G} (hi : Input nodes edges nw ew)
    (hr : Representable b nodes edges nw ew) (ha : Agrees nodes edges nw ew g)
    (e2 : g.edges = edges) (e3 : g.nw = nw) (e4 : g.ew = ew) :
    Fits b g ∧ (write b g).length < 2 ^ 64 := by
  have hpos := hi.nonempty
  have hn := ha.n
  have hm := ha.m
  have hnw : g.isNodeWeighted = true → nw.size = g.n := fun h =>
    weighted_size (hn ▸ hi.nw) ha.totalNw h
  have hew : g.isEdgeWeighted = true → ew.size = g.m := fun h =>
    weighted_size (hm ▸ hi.ew) ha.totalEw h
  have hf : Fits b g := by
    refine ⟨by have := hr.ids; omega, fun e he => e2 ▸ hr.targets e (hm ▸ he), fun h => ?_, fun h => ?_⟩
    · rw [e3]
      refine ⟨hnw h, fun u hu => ⟨?_, hr.nw u (hnw h ▸ hu)⟩⟩
      have := hi.nw.2 u (hnw h ▸ hu); omega
    · rw [e4]
      refine ⟨hew h, fun u hu => ⟨?_, hr.ew u (hew h ▸ hu)⟩⟩
      have := hi.ew.2 u (hew h ▸ hu); omega
  refine ⟨hf, ?_⟩
  rw [hf.length, hm, hn, show nodes.size - 1 + 1 = nodes.size by omega]
  have h1 : nodes.size * sz b.e64 ≤ nodes.size * 8 := Nat.mul_le_mul_left _ (by cases b.e64 <;> decide)
  have h2 : edges.size * sz b.n64 ≤ edges.size * 8 := Nat.mul_le_mul_left _ (by cases b.n64 <;> decide)
  have h3 : (if g.isNodeWeighted then (nodes.size - 1) * sz b.nw64 else 0) ≤ nodes.size * 8 := by
    split
    · exact Nat.mul_le_mul (by omega) (by cases b.nw64 <;> decide)
    · omega
  have h4 : (if g.isEdgeWeighted then edges.size * sz b.ew64 else 0) ≤ edges.size * 8 := by
    split
    · exact Nat.mul_le_mul_left _ (by cases b.ew64 <;> decide)
    · omega
  have := hr.size
  omega

theorem build_arrays {lowest : Int} {nodes edges : Arr Nat} {nw ew : Arr Int} {sorted : Bool} {s : Scheds} {g : G}
    (hg : build lowest nodes edges nw ew sorted s = some g) :
    g.nodes = nodes ∧ g.edges = edges ∧ g.nw = nw ∧ g.ew = ew := by
  unfold build at hg
  cases hb : initDegreeBuckets sorted (nodes.size - 1) fun u => nodes.data (u + 1) - nodes.data u with
  | none => rw [hb] at hg; exact absurd hg (fun h => nomatch h)
  | some bn =>
    rw [hb] at hg
    have hg := (Option.some.inj hg).symm
    exact ⟨by rw [hg], by rw [hg], by rw [hg], by rw [hg]⟩

theorem arr_elems_data {α : Type} {a : Arr α} {d : α} {i : Nat} (hi : i < a.size) :
    (arr d (elems a)).data i = a.data i := by
  show (elems a).getD i d = _
  rw [getD_lt (by rw [elems_length]; exact hi)]
  simp [elems]

theorem arr_elems_size {α : Type} {a : Arr α} {d : α} : (arr d (elems a)).size = a.size := elems_length a

/-- The weights that are read answer like those that were written. -/
theorem weights_back {a : Arr Int} {n : Nat} (ha : Weights a n) (w : Bool)
    (hw : w = false → ∀ i, i < n → weightAt a i = 1) :
    Weights (arr 0 (if w then elems a else [])) n ∧
    ∀ i, i < n → weightAt (arr 0 (if w then elems a else [])) i = weightAt a i := by
  cases w with
  | false => exact ⟨⟨Or.inl rfl, fun i hi => absurd hi (Nat.not_lt_zero i)⟩, fun i hi => by rw [hw rfl i hi]; rfl⟩
  | true =>
    simp only [if_true]
    refine ⟨⟨by rw [arr_elems_size]; exact ha.1, fun i hi => ?_⟩, fun i hi => ?_⟩
    · rw [arr_elems_size] at hi
      rw [arr_elems_data hi]; exact ha.2 i hi
    · unfold weightAt
      rw [arr_elems_size]
      split
      · rfl
      · rename_i h0
        exact arr_elems_data (by rw [ha.1.resolve_left h0]; exact hi)

/-- **C61 (round trip).**  A graph that a program wrote to a ParHIP file is read back as the same graph: for every
build of the program that reads it, as long as none of its types is narrower than that of the program that wrote
it.  The graph made of the arrays that are read answers all calls (C26) according to the arrays from which the
original graph was made.

What is missing for all graphs: the file offsets of the neighbourhoods must be values of the type of edge IDs
(`hoff`), see `C61_offsets_overflow`. -/
theorem C61_roundtrip_partial (b b' : Build) (page : Nat) (lowest lowest' : Int) (nodes edges : Arr Nat)
    (nw ew : Arr Int) (sorted sorted' : Bool) (s : Scheds) (g : G)
    (hg : build lowest nodes edges nw ew sorted s = some g)
    (hin : Input nodes edges nw ew) (hlow : lowest ≤ 1) (hlow' : lowest' ≤ 1)
    (hs1 : s.nw.covers 0 nw.size) (hs2 : s.ew.covers 0 ew.size) (hs3 : s.deg.covers 0 (nodes.size - 1))
    (hr : Representable b nodes edges nw ew)
    (hb : NotNarrower b b' g.isNodeWeighted g.isEdgeWeighted)
    (hoff : 24 + nodes.size * sz b.e64 + edges.size * sz b.n64 < 2 ^ (8 * sz b.e64)) :
    ∃ a, csrRead b' page (write b g) = .ok a ∧ ∀ (s' : Scheds) (g' : G),
      build lowest' (arr 0 a.nodes) (arr 0 a.edges) (arr 0 a.nw) (arr 0 a.ew) sorted' s' = some g' →
      s'.nw.covers 0 a.nw.length → s'.ew.covers 0 a.ew.length → s'.deg.covers 0 (nodes.size - 1) →
      Agrees nodes edges nw ew g' := by
  obtain ⟨e1, e2, e3, e4⟩ := build_arrays hg
  have hpos := hin.nonempty
  have ha := (C26_accessors_partial lowest nodes edges nw ew sorted s g hg hin.nw hin.ew hlow hin.mono
    (fun u hu => hin.last _ (by omega)) hs1 hs2 hs3).1
  obtain ⟨hf, hsz⟩ := fits_of hin hr ha e2 e3 e4
  have hw := wide_iff.2 hb
  have hn : g.n + 1 = nodes.size := by rw [ha.n]; omega
  refine ⟨_, read_write hf hw hsz page, ?_⟩
  rw [offsets_ok hw (by rw [e1, hn]) (by rw [hn, ha.m]; exact hoff)
    (fun u hu => by rw [e1, ha.m]; exact hin.last u (by omega)), e1, e2, e3, e4]
  intro s' g' hg' c1 c2 c3
  dsimp only at hg' c1 c2
  obtain ⟨w1, w2⟩ := weights_back hin.nw g.isNodeWeighted fun h i hi => unweighted_nw ha h hi
  obtain ⟨x1, x2⟩ := weights_back hin.ew g.isEdgeWeighted fun h i hi => unweighted_ew ha h hi
  have hd : ∀ u, u < nodes.size → (arr 0 (elems nodes)).data u = nodes.data u := fun u hu => arr_elems_data hu
  have hsn : (arr 0 (elems nodes)).size = nodes.size := arr_elems_size
  have hse : (arr 0 (elems edges)).size = edges.size := arr_elems_size
  have ha' := (C26_accessors_partial lowest' _ _ _ _ sorted' s' g' hg' (by rw [hsn]; exact w1)
    (by rw [hse]; exact x1) hlow' (fun u hu => by
      rw [hsn] at hu
      rw [hd u (by omega), hd (u + 1) (by omega)]; exact hin.mono u hu)
    (fun u hu => by
      rw [hsn] at hu
      rw [hd (u + 1) (by omega), hse]; exact hin.last _ (by omega)) c1 c2 (by rw [hsn]; exact c3)).1
  have hn' : g'.n = nodes.size - 1 := by rw [ha'.n, hsn]
  have hm' : g'.m = edges.size := by rw [ha'.m, hse]
  have hdeg : ∀ u, u < g'.n → g'.degree u = nodes.data (u + 1) - nodes.data u := fun u hu => by
    rw [ha'.degree u hu, hd u (by omega), hd (u + 1) (by omega)]
  refine ⟨hn', hm', hdeg, fun u hu => ?_, fun e he => ?_, fun u hu => ?_, ha'.adjacentUpTo, ?_, ?_, fun u hu => ?_,
    fun h0 => ?_⟩
  · rw [ha'.nodeWeight u hu, w2 u (by omega)]
  · rw [ha'.edgeWeight e he, x2 e (by omega)]
  · rw [ha'.adjacent u hu, hd u (by omega)]
    apply List.map_congr_left
    intro e he
    have h1 := List.mem_range'_1.1 he
    have h2 := hdeg u hu
    have h3 := hin.last (u + 1) (by omega)
    have h4 := hin.mono u (by omega)
    have he' : e < edges.size := by omega
    rw [arr_elems_data he', x2 e he']
  · rw [ha'.totalNw]
    exact Finset.sum_congr rfl fun u hu => w2 u (by have := Finset.mem_range.1 hu; omega)
  · rw [ha'.totalEw]
    exact Finset.sum_congr rfl fun e he => x2 e (by have := Finset.mem_range.1 he; omega)
  · have := ha'.maxNwUpper u hu
    rwa [w2 u (by omega)] at this
  · obtain ⟨u, hu, h⟩ := ha'.maxNwAttained h0
    exact ⟨u, hu, by rw [h, w2 u (by omega)]⟩

/-- A path with three nodes, node weights and edge weights, for the examples. -/
def exNodes : Arr Nat := .owned (fun u => [0, 1, 3, 4].getD u 0) 4
def exEdges : Arr Nat := .owned (fun e => [1, 0, 2, 1].getD e 0) 4
def exNw : Arr Int := .owned (fun u => [2, 1, 5].getD u 0) 3
def exEw : Arr Int := .owned (fun e => [7, 7, 4, 4].getD e 0) 4
def exScheds : Scheds := ⟨.body [(0, 3)], .body [(0, 4)], .body [(0, 3)]⟩
def exNarrow : Build := ⟨false, false, false, false⟩
def exWide : Build := ⟨true, true, true, true⟩

example : Input exNodes exEdges exNw exEw ∧ Representable exNarrow exNodes exEdges exNw exEw ∧
    NotNarrower exNarrow exWide true true := by
  refine ⟨⟨by decide, ⟨by decide, by decide⟩, ⟨by decide, by decide⟩, by decide, by decide⟩,
    ⟨by decide, by decide, by decide, by decide, by decide⟩, ⟨?_, ?_, ?_, ?_⟩⟩ <;> decide

/-- A file of a 32-bit build is read by a 64-bit build. -/
example : ∃ g, build (-2147483648) exNodes exEdges exNw exEw false exScheds = some g ∧
    csrRead exWide 4096 (write exNarrow g) = .ok ⟨[0, 1, 3, 4], [1, 0, 2, 1], [2, 1, 5], [7, 7, 4, 4]⟩ ∧
    csrRead exNarrow 4096 (write exWide g) = .error .exit := by
  refine ⟨_, rfl, ?_⟩
  decide +kernel

/-- **C61 (types).**  A program whose types are narrower than those of the program that wrote the file exits with
an error message; it never returns a graph. -/
theorem C61_narrow_types_exit (b b' : Build) (page : Nat) (g : G) (hn : g.n + 1 < 2 ^ (8 * sz b.n64))
    (hm : g.m < 2 ^ 64) (h : ¬ NotNarrower b b' g.isNodeWeighted g.isEdgeWeighted) :
    csrRead b' page (write b g) = .error .exit := by
  unfold csrRead
  rw [show Mapped.open? page (write b g) = .ok ⟨write b g, page⟩ by rw [Mapped.open?, if_neg (write_ne_nil b g)],
    ok_bind, parse_write b g page hn hm, ok_bind, validate_exit (fun hw => h (wide_iff.1 hw))]
  rfl

/-- **C61, negative.**  The offsets of the file are edge IDs, although they count bytes: with 32-bit IDs every graph
with more than about 2^30 edges is written without an error and read back with a wrong number of edges of its
nodes: the offset behind the last neighbourhood is not the number of edges. -/
theorem C61_offsets_overflow (b b' : Build) (page : Nat) (lowest : Int) (nodes edges : Arr Nat)
    (nw ew : Arr Int) (sorted : Bool) (s : Scheds) (g : G)
    (hg : build lowest nodes edges nw ew sorted s = some g)
    (hin : Input nodes edges nw ew) (hlow : lowest ≤ 1)
    (hs1 : s.nw.covers 0 nw.size) (hs2 : s.ew.covers 0 ew.size) (hs3 : s.deg.covers 0 (nodes.size - 1))
    (hr : Representable b nodes edges nw ew)
    (hb : NotNarrower b b' g.isNodeWeighted g.isEdgeWeighted)
    (h32 : b.n64 = false ∧ b.e64 = false)
    (hlast : nodes.data (nodes.size - 1) = edges.size)
    (hover : 2 ^ 32 ≤ 24 + 4 * nodes.size + 4 * edges.size ∧ edges.size < 2 ^ 32 ∧ 24 + 4 * nodes.size < 2 ^ 32 ∧
      24 + 4 * nodes.size + 4 * edges.size < 2 ^ 34) :
    ∃ a x, csrRead b' page (write b g) = .ok a ∧ a.nodes[nodes.size - 1]? = some x ∧ x ≠ edges.size := by
  obtain ⟨e1, e2, e3, e4⟩ := build_arrays hg
  have hpos := hin.nonempty
  have ha := (C26_accessors_partial lowest nodes edges nw ew sorted s g hg hin.nw hin.ew hlow hin.mono
    (fun u hu => hin.last _ (by omega)) hs1 hs2 hs3).1
  obtain ⟨hf, hsz⟩ := fits_of hin hr ha e2 e3 e4
  have hw := wide_iff.2 hb
  have hn : g.n + 1 = nodes.size := by rw [ha.n]; omega
  have hget : ((storedOffsets b g).map (Header.mapOffset
      ⟨g.isEdgeWeighted, g.isNodeWeighted, b.e64, b.n64, b.nw64, b.ew64, g.n, g.m⟩ b'))[nodes.size - 1]? =
      some (Header.mapOffset ⟨g.isEdgeWeighted, g.isNodeWeighted, b.e64, b.n64, b.nw64, b.ew64, g.n, g.m⟩ b'
        (word (word (24 + (g.n + 1) * sz b.e64) % 2 ^ (8 * sz b.e64) + g.nodes.data g.n * sz b.n64) %
          2 ^ (8 * sz b.e64))) := by
    rw [List.getElem?_map, show nodes.size - 1 = g.n by omega]
    unfold storedOffsets
    rw [List.getElem?_map, List.getElem?_range (by omega), Option.map_some, Option.map_some]
  refine ⟨_, _, read_write hf hw hsz page, hget, ?_⟩
  obtain ⟨h1, h2⟩ := h32
  have hnm : g.n + 1 < 2 ^ 30 := by omega
  have hgm : g.nodes.data g.n = edges.size := by rw [e1, show g.n = nodes.size - 1 by omega, hlast]
  unfold Header.mapOffset Header.edgesOffset
  dsimp only
  rw [h1, h2, hgm]
  have s4 : sz false = 4 := rfl
  rw [s4, word_of_lt (x := 24 + (g.n + 1) * 4) (by omega), Nat.mod_eq_of_lt (a := 24 + (g.n + 1) * 4) (by omega),
    word_of_lt (by omega)]
  unfold subW
  cases b'.e64 <;> simp only [sz, if_true, Bool.false_eq_true, if_false] <;> omega

/-! ## Files that are too short -/

/-- All errors of the computation are undefined behaviour. -/
def OnlyUndefined {α : Type} (r : Res α) : Prop := ∀ e, r = .error e → e = .undefined

theorem onlyUndefined_mapM {α β : Type} {f : α → Res β} : ∀ {l : List α}, (∀ x ∈ l, OnlyUndefined (f x)) →
    OnlyUndefined (l.mapM f)
  | [], _ => fun e h => by rw [List.mapM_nil] at h; exact nomatch h
  | x :: l, h => fun e he => by
    rw [List.mapM_cons] at he
    cases hx : f x with
    | error e' => rw [hx] at he; exact h x List.mem_cons_self e (by rw [hx]; exact congrArg _ (Except.error.inj he))
    | ok y =>
      rw [hx, ok_bind] at he
      cases hl : l.mapM f with
      | error e' =>
        rw [hl] at he
        exact onlyUndefined_mapM (fun x hx => h x (List.mem_cons_of_mem _ hx)) e
          (by rw [hl]; exact congrArg _ (Except.error.inj he))
      | ok ys => rw [hl] at he; exact nomatch he

theorem undefined_mapM {α β : Type} {f : α → Res β} : ∀ {l : List α}, (∀ x ∈ l, OnlyUndefined (f x)) →
    (∃ x ∈ l, f x = .error .undefined) → l.mapM f = .error .undefined
  | [], _, ⟨x, hx, _⟩ => absurd hx List.not_mem_nil
  | x :: l, h, ⟨z, hz, hfz⟩ => by
    rw [List.mapM_cons]
    cases hx : f x with
    | error e => rw [h x List.mem_cons_self e hx]; rfl
    | ok y =>
      rw [ok_bind]
      have hzl : z ∈ l := (List.mem_cons.1 hz).resolve_left fun hzx => by rw [hzx, hx] at hfz; exact nomatch hfz
      rw [undefined_mapM (fun x hx => h x (List.mem_cons_of_mem _ hx)) ⟨z, hzl, hfz⟩]; rfl

theorem onlyUndefined_byte (m : Mapped) (p : Nat) : OnlyUndefined (m.byte p) := fun e h => by
  unfold Mapped.byte at h
  split at h
  · exact nomatch h
  · split at h
    · exact nomatch h
    · exact (Except.error.inj h).symm

theorem onlyUndefined_int (m : Mapped) (k p : Nat) : OnlyUndefined (m.int k p) := fun e h => by
  unfold Mapped.int at h
  cases hl : (List.range k).mapM fun i => m.byte (p + i) with
  | error e' =>
    rw [hl] at h
    exact onlyUndefined_mapM (fun x _ => onlyUndefined_byte m (p + x)) e (by rw [hl]; exact congrArg _ (Except.error.inj h))
  | ok l => rw [hl] at h; exact nomatch h

theorem onlyUndefined_readIds (b64 h64 : Bool) (m : Mapped) (off len : Nat) : OnlyUndefined (readIds b64 h64 m off len) := by
  unfold readIds
  split
  · exact onlyUndefined_mapM fun x _ => onlyUndefined_int m _ _
  · exact onlyUndefined_mapM fun x _ => onlyUndefined_int m _ _

theorem undefined_ints {m : Mapped} {k p len : Nat} (hk : 0 < k) (hlen : 0 < len)
    (h : m.byte (p + k * len - 1) = .error .undefined) : m.ints k p len = .error .undefined := by
  refine undefined_mapM (fun x _ => onlyUndefined_int m k _) ⟨len - 1, List.mem_range.2 (by omega), ?_⟩
  have hb : (List.range k).mapM (fun i => m.byte (p + k * (len - 1) + i)) = .error .undefined := by
    refine undefined_mapM (fun x _ => onlyUndefined_byte m _) ⟨k - 1, List.mem_range.2 (by omega), ?_⟩
    have e : k * len = k * (len - 1) + k := by
      obtain ⟨l, rfl⟩ : ∃ l, len = l + 1 := ⟨len - 1, by omega⟩
      rw [Nat.add_sub_cancel, Nat.mul_add, Nat.mul_one]
    rw [show p + k * (len - 1) + (k - 1) = p + k * len - 1 by omega]
    exact h
  unfold Mapped.int
  rw [hb]; rfl

/-- **C61, negative.**  The length of the file is not compared with what the header promises: if the array of edges
ends behind the last page of the file, reading the file is undefined behaviour (it reads memory that is not
mapped), for every such file. -/
theorem C61_short_file_undefined (b : Build) (page : Nat) (file : List Nat) (h : Header) (hpage : 0 < page)
    (hne : file ≠ []) (hparse : Header.parse ⟨file, page⟩ = .ok h) (hval : h.validate b = .ok ()) (hm : 0 < h.m)
    (hshort : page * ((file.length + page - 1) / page) < h.edgesOffset + sz h.n64 * h.m) :
    csrRead b page file = .error .undefined := by
  have hlen : file.length ≤ page * ((file.length + page - 1) / page) := by
    have h1 := Nat.div_add_mod (file.length + page - 1) page
    have h2 := Nat.mod_lt (file.length + page - 1) hpage
    omega
  unfold csrRead
  rw [show Mapped.open? page file = .ok ⟨file, page⟩ by rw [Mapped.open?, if_neg hne], ok_bind, hparse, ok_bind, hval,
    ok_bind]
  cases hn : readIds b.e64 h.e64 ⟨file, page⟩ 24 (word (h.n + 1)) with
  | error e => rw [onlyUndefined_readIds _ _ _ _ _ e hn]; rfl
  | ok nodes =>
    rw [ok_bind]
    have hk : 0 < sz h.n64 := by rcases sz_cases h.n64 with h | h <;> omega
    have hbyte : Mapped.byte ⟨file, page⟩ (h.edgesOffset + sz h.n64 * h.m - 1) = .error .undefined := by
      unfold Mapped.byte
      dsimp only
      rw [List.getElem?_eq_none (by omega)]
      dsimp only
      rw [if_neg (by omega)]
    have := undefined_ints hk hm hbyte
    have hr : readIds b.n64 h.n64 ⟨file, page⟩ h.edgesOffset h.m = .error .undefined := by
      unfold readIds
      unfold Header.validate at hval
      cases h1 : h.n64 <;> cases h2 : b.n64 <;> rw [h1] at this <;> simp [h1, h2] at hval ⊢ <;> exact this
    rw [hr]; rfl

/-- The header of a file for two nodes and 2000 edges, and nothing else: reading it is undefined behaviour. -/
example :
    let file := le 8 (version exNarrow false false) ++ le 8 2 ++ le 8 2000
    Header.parse ⟨file, 4096⟩ = .ok (Header.ofVersion (version exNarrow false false) 2 2000) ∧
    (Header.ofVersion (version exNarrow false false) 2 2000).validate exNarrow = .ok () ∧
    4096 * ((file.length + 4096 - 1) / 4096) < (Header.ofVersion (version exNarrow false false) 2 2000).edgesOffset +
      sz (Header.ofVersion (version exNarrow false false) 2 2000).n64 * 2000 := by
  decide +kernel

/-- **C61, negative.**  If the missing part is on the last page, the reader returns a graph: here the last two
edges were cut off a file, and are replaced by edges to node 0. -/
theorem C61_truncated_file_accepted :
    ∃ g, build (-2147483648) exNodes exEdges (.owned (fun _ => 0) 0) (.owned (fun _ => 0) 0) false
        ⟨.body [], .body [], .body [(0, 3)]⟩ = some g ∧
      csrRead exNarrow 4096 (write exNarrow g) = .ok ⟨[0, 1, 3, 4], [1, 0, 2, 1], [], []⟩ ∧
      csrRead exNarrow 4096 ((write exNarrow g).dropLast.dropLast.dropLast.dropLast.dropLast.dropLast.dropLast.dropLast) =
        .ok ⟨[0, 1, 3, 4], [1, 0, 0, 0], [], []⟩ := by
  refine ⟨_, rfl, ?_⟩
  decide +kernel

/-! ## Reading with external degree buckets -/

open Verif.Permute in
/-- **C61 (node ordering).**  If the nodes are renumbered while the file is read, the result is the graph of the file
with its nodes renamed, for every schedule of the two parallel loops: sizes, weights, and the neighbourhood of every
node in the order of the file. -/
theorem C61_degree_buckets (g : Csr) (p : NodePermutations) (order1 order2 : List Nat)
    (garbage : Nat → Nat) (garbageE : Nat → Nat × Int) (garbageW : Nat → Int)
    (hp1 : ∀ u, u < g.n → p.oldToNew u < g.n ∧ p.newToOld (p.oldToNew u) = u)
    (h1 : order1.Perm (List.range g.n)) (h2 : order2.Perm (List.range g.n)) :
    let g' := degBuckets g p order1 order2 garbage garbageE garbageW
    g'.graph.n = g.graph.n ∧
    (∀ u, u < g.n → g'.graph.w (p.oldToNew u) = g.graph.w u) ∧
    (∀ u, u < g.n → g'.graph.adj (p.oldToNew u) = (g.graph.adj u).map fun e => (p.oldToNew e.1, e.2)) ∧
    (g'.nodes 0 = 0 ∧ ∀ u, u < g.n → g'.nodes u ≤ g'.nodes (u + 1)) := by
  intro g'
  obtain ⟨D, hD⟩ : ∃ D : Nat → Nat, D = fun u => g.nodes (p.newToOld u + 1) - g.nodes (p.newToOld u) := ⟨_, rfl⟩
  have hmem1 : ∀ u, u ∈ order1 ↔ u < g.n := fun u => h1.mem_iff.trans List.mem_range
  have hmem2 : ∀ u, u ∈ order2 ↔ u < g.n := fun u => h2.mem_iff.trans List.mem_range
  have hnd : order2.Nodup := h2.nodup_iff.2 List.nodup_range
  have hfill := shift_loop D (fun u => g.w (p.newToOld u)) order1 (garbage, garbageW)
  set new := order1.foldl (fun (s : (Nat → Nat) × (Nat → Int)) u =>
    (upd s.1 (u + 1) (D u), upd s.2 u (g.w (p.newToOld u)))) (garbage, garbageW) with hnew
  set nodes := Permute.prefixSum (g.n + 1) (upd new.1 0 0) with hnodes
  have hps : ∀ k, k ≤ g.n → psum (upd new.1 0 0) (k + 1) = psum D k := by
    intro k
    induction k with
    | zero => intro _; rw [psum, psum, psum, upd_same]
    | succ k ih =>
      intro hk
      rw [psum, ih (by omega), psum, upd_ne _ _ (by omega), (hfill k ((hmem1 k).2 (by omega))).1]
  have hn0 : ∀ u, u ≤ g.n → nodes u = psum D u := by
    intro u hu
    rw [hnodes, prefixSum_eq _ (by omega), hps u hu]
  obtain ⟨m1, m2⟩ := copy_all g p nodes D (fun u => by rw [hD]) order2 garbageE hnd fun u hu =>
    hn0 u (by have := (hmem2 u).1 hu; omega)
  have hg' : g' = ⟨g.n, nodes, order2.foldl (copyEdges g p nodes) garbageE, new.2⟩ := by
    rw [hnodes, hnew, hD]; rfl
  set r := order2.foldl (copyEdges g p nodes) garbageE with hr
  refine ⟨by rw [hg']; rfl, ?_, ?_, ?_⟩
  · intro u hu
    rw [hg']
    show new.2 (p.oldToNew u) = g.w u
    rw [(hfill _ ((hmem1 _).2 (hp1 u hu).1)).2, (hp1 u hu).2]
  · intro u hu
    rw [hg']
    obtain ⟨x, hx⟩ : ∃ x, x = p.oldToNew u := ⟨_, rfl⟩
    have hxn : x < g.n := hx ▸ (hp1 u hu).1
    have hxu : p.newToOld x = u := by rw [hx]; exact (hp1 u hu).2
    rw [← hx]
    show (List.range' (nodes x) (nodes (x + 1) - nodes x)).map r = _
    have hps : psum D (x + 1) = psum D x + D x := rfl
    have hDx : D x = g.nodes (u + 1) - g.nodes u := by rw [hD]; simp only [hxu]
    rw [hn0 x (by omega), hn0 (x + 1) (by omega), show psum D (x + 1) - psum D x = D x by omega]
    show _ = ((List.range' (g.nodes u) (g.nodes (u + 1) - g.nodes u)).map g.edges).map _
    rw [← hDx]
    apply List.ext_getElem
    · simp
    · intro i hi1 hi2
      have hi : i < D x := by simpa using hi1
      have := m1 x ((hmem2 x).2 hxn) i hi
      rw [hxu] at this
      simp only [List.getElem_map, List.getElem_range', Nat.one_mul]
      exact this
  · rw [hg']
    refine ⟨(hn0 0 (Nat.zero_le _)).trans rfl, fun u hu => ?_⟩
    show nodes u ≤ nodes (u + 1)
    rw [hn0 u (by omega), hn0 (u + 1) (by omega)]
    exact psum_le (by omega)

/-- Non-vacuity: a path with an isolated node. -/
example :
    let g : Permute.Csr :=
      ⟨4, fun u => [0, 2, 2, 3, 4].getD u 0, fun e => [(2, 5), (3, 6), (0, 5), (0, 6)].getD e (0, 0), fun u => u⟩
    let p : Permute.NodePermutations := ⟨fun u => [2, 3, 0, 1].getD u 0, fun u => [2, 3, 0, 1].getD u 0⟩
    let g' := degBuckets g p [3, 1, 2, 0] [2, 0, 1, 3] (fun _ => 9) (fun _ => (9, 9)) fun _ => 9
    (∀ u, u < g.n → p.oldToNew u < g.n ∧ p.newToOld (p.oldToNew u) = u) ∧
    (List.range 4).map g'.graph.adj = [[(2, 5)], [(2, 6)], [(0, 5), (1, 6)], []] := by
  decide +kernel

end Verif.Binary
