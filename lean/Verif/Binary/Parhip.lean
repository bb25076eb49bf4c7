import Verif.Binary.Lemmas
import Verif.Permute.Props

/-!
# ParHIP files: reading what was written
-/

namespace Verif.Binary
open Verif.Math Verif.CsrGraph Verif.Permute

theorem elems_length {α : Type} (a : Arr α) : (elems a).length = a.size := by simp [elems]

theorem word_of_lt {x : Nat} (h : x < 2 ^ 64) : word x = x := Nat.mod_eq_of_lt h

/-- The offsets in the file. -/
def storedOffsets (b : Build) (g : G) : List Nat :=
  (List.range (g.n + 1)).map fun u =>
    word (word (24 + (g.n + 1) * sz b.e64) % 2 ^ (8 * sz b.e64) + g.nodes.data u * sz b.n64) % 2 ^ (8 * sz b.e64)

theorem file_eq (b : Build) (g : G) (hn : g.n + 1 < 2 ^ (8 * sz b.n64)) :
    write b g = le 8 (version b g.isEdgeWeighted g.isNodeWeighted) ++ le 8 g.n ++ le 8 g.m ++
    (storedOffsets b g).flatMap (le (sz b.e64)) ++ (elems g.edges).flatMap (le (sz b.n64)) ++
    (if g.isNodeWeighted then (elems g.nw).flatMap fun x => le (sz b.nw64) (bits (sz b.nw64) x) else []) ++
    (if g.isEdgeWeighted then (elems g.ew).flatMap fun x => le (sz b.ew64) (bits (sz b.ew64) x) else []) := by
  unfold write storedOffsets
  simp only [Nat.mod_eq_of_lt hn]

theorem weights_length (k : Nat) (l : List Int) : (l.flatMap fun x => le k (bits k x)).length = k * l.length := by
  rw [show (l.flatMap fun x => le k (bits k x)) = (l.map (bits k)).flatMap (le k) by rw [List.flatMap_map],
    flatMap_le_length, List.length_map]

theorem parse_write (b : Build) (g : G) (page : Nat) (hn : g.n + 1 < 2 ^ (8 * sz b.n64)) (hm : g.m < 2 ^ 64) :
    Header.parse ⟨write b g, page⟩ =
      .ok ⟨g.isEdgeWeighted, g.isNodeWeighted, b.e64, b.n64, b.nw64, b.ew64, g.n, g.m⟩ := by
  have h64 := pow_sz_le b.n64
  obtain ⟨R, hR⟩ : ∃ R, write b g =
      le 8 (version b g.isEdgeWeighted g.isNodeWeighted) ++ (le 8 g.n ++ (le 8 g.m ++ R)) :=
    ⟨_, by rw [file_eq b g hn]; simp only [List.append_assoc]; rfl⟩
  have hv : version b g.isEdgeWeighted g.isNodeWeighted < 2 ^ (8 * 8) :=
    lt_trans (version_lt b _ _) (by decide)
  unfold Header.parse
  have e1 := int_ok (pre := []) (post := le 8 g.n ++ (le 8 g.m ++ R)) hv page (p := 0) rfl
  have e2 := int_ok (pre := le 8 (version b g.isEdgeWeighted g.isNodeWeighted)) (post := le 8 g.m ++ R)
    (k := 8) (x := g.n) (by omega) page (p := 8) (le_length _ _).symm
  have e3 := int_ok (pre := le 8 (version b g.isEdgeWeighted g.isNodeWeighted) ++ le 8 g.n) (post := R)
    (k := 8) (x := g.m) hm page (p := 16) (by rw [List.length_append, le_length, le_length])
  simp only [List.append_assoc, List.nil_append] at e1 e2 e3
  rw [hR, e1, ok_bind, e2, ok_bind, e3, ok_bind, pure_eq, header_ofVersion]

theorem write_ne_nil (b : Build) (g : G) : write b g ≠ [] := by
  intro h
  have := congrArg List.length h
  simp [write, le_length] at this

/-- The types of the reading build are wide enough. -/
structure Wide (b b' : Build) (g : G) : Prop where
  node : b.n64 = true → b'.n64 = true
  edge : b.e64 = true → b'.e64 = true
  nw : g.isNodeWeighted = true → b.nw64 = true → b'.nw64 = true
  ew : g.isEdgeWeighted = true → b.ew64 = true → b'.ew64 = true

theorem validate_ok {b b' : Build} {g : G} (h : Wide b b' g) :
    Header.validate ⟨g.isEdgeWeighted, g.isNodeWeighted, b.e64, b.n64, b.nw64, b.ew64, g.n, g.m⟩ b' = .ok () := by
  obtain ⟨h1, h2, h3, h4⟩ := h
  unfold Header.validate
  dsimp only
  cases hb1 : b.n64 <;> cases hb2 : b.e64 <;> cases hb3 : b.nw64 <;> cases hb4 : b.ew64 <;>
    cases hn : g.isNodeWeighted <;> cases he : g.isEdgeWeighted <;>
    simp_all

theorem validate_exit {b b' : Build} {g : G} (h : ¬ Wide b b' g) :
    Header.validate ⟨g.isEdgeWeighted, g.isNodeWeighted, b.e64, b.n64, b.nw64, b.ew64, g.n, g.m⟩ b' = .error .exit := by
  unfold Header.validate
  dsimp only
  by_contra hc
  apply h
  refine ⟨fun h1 => ?_, fun h1 => ?_, fun h1 h2 => ?_, fun h1 h2 => ?_⟩
  · by_contra h2
    rw [Bool.not_eq_true] at h2
    simp [h1, h2] at hc
  · by_contra h2
    rw [Bool.not_eq_true] at h2
    apply hc
    simp [h1, h2]
  · by_contra h3
    rw [Bool.not_eq_true] at h3
    apply hc
    simp [h1, h2, h3]
  · by_contra h3
    rw [Bool.not_eq_true] at h3
    apply hc
    simp [h1, h2, h3]

/-- The graph can be written: IDs and weights are representable in the types of the build. -/
structure Fits (b : Build) (g : G) : Prop where
  maxN : g.n + 1 < 2 ^ (8 * sz b.n64)
  targets : ∀ e, e < g.m → g.edges.data e < 2 ^ (8 * sz b.n64)
  nw : g.isNodeWeighted = true → g.nw.size = g.n ∧ ∀ u, u < g.n → 0 ≤ g.nw.data u ∧ g.nw.data u < 2 ^ (8 * sz b.nw64 - 1)
  ew : g.isEdgeWeighted = true → g.ew.size = g.m ∧ ∀ e, e < g.m → 0 ≤ g.ew.data e ∧ g.ew.data e < 2 ^ (8 * sz b.ew64 - 1)

theorem Fits.length {b : Build} {g : G} (h : Fits b g) : (write b g).length =
    24 + (g.n + 1) * sz b.e64 + g.m * sz b.n64 + (if g.isNodeWeighted then g.n * sz b.nw64 else 0) +
      (if g.isEdgeWeighted then g.m * sz b.ew64 else 0) := by
  have e1 : (if g.isNodeWeighted then (elems g.nw).flatMap fun x => le (sz b.nw64) (bits (sz b.nw64) x) else []).length =
      if g.isNodeWeighted then g.n * sz b.nw64 else 0 := by
    split
    · rename_i hw
      rw [weights_length, elems_length, (h.nw hw).1, Nat.mul_comm]
    · rfl
  have e2 : (if g.isEdgeWeighted then (elems g.ew).flatMap fun x => le (sz b.ew64) (bits (sz b.ew64) x) else []).length =
      if g.isEdgeWeighted then g.m * sz b.ew64 else 0 := by
    split
    · rename_i hw
      rw [weights_length, elems_length, (h.ew hw).1, Nat.mul_comm]
    · rfl
  rw [file_eq b g h.maxN]
  simp only [List.length_append, le_length, flatMap_le_length, e1, e2, elems_length]
  have h3 : (storedOffsets b g).length = g.n + 1 := by simp [storedOffsets]
  rw [h3, Nat.mul_comm (sz b.e64), Nat.mul_comm (sz b.n64)]
  rfl

theorem mem_elems {α : Type} {a : Arr α} {x : α} (h : x ∈ elems a) : ∃ i, i < a.size ∧ a.data i = x := by
  obtain ⟨i, hi, rfl⟩ := List.mem_map.1 h
  exact ⟨i, List.mem_range.1 hi, rfl⟩

/-- Reading a written file: everything but the offsets is as in the graph. -/
theorem read_write {b b' : Build} {g : G} (hf : Fits b g) (hw : Wide b b' g) (hsz : (write b g).length < 2 ^ 64)
    (page : Nat) :
    csrRead b' page (write b g) = .ok
      { nodes := (storedOffsets b g).map
          (Header.mapOffset ⟨g.isEdgeWeighted, g.isNodeWeighted, b.e64, b.n64, b.nw64, b.ew64, g.n, g.m⟩ b')
        edges := elems g.edges
        nw := if g.isNodeWeighted then elems g.nw else []
        ew := if g.isEdgeWeighted then elems g.ew else [] } := by
  have hlen := hf.length
  rw [hlen] at hsz
  have hmle : g.m ≤ g.m * sz b.n64 := Nat.le_mul_of_pos_right _ (by rcases sz_cases b.n64 with h | h <;> omega)
  have hnle : g.n + 1 ≤ (g.n + 1) * sz b.e64 := Nat.le_mul_of_pos_right _ (by rcases sz_cases b.e64 with h | h <;> omega)
  have hlo : (storedOffsets b g).length = g.n + 1 := by simp [storedOffsets]
  obtain ⟨H, hH⟩ : ∃ H : Header, H = ⟨g.isEdgeWeighted, g.isNodeWeighted, b.e64, b.n64, b.nw64, b.ew64, g.n, g.m⟩ := ⟨_, rfl⟩
  unfold csrRead
  rw [show Mapped.open? page (write b g) = .ok ⟨write b g, page⟩ by rw [Mapped.open?, if_neg (write_ne_nil b g)],
    ok_bind, parse_write b g page hf.maxN (by omega), ok_bind, validate_ok hw, ok_bind, ← hH]
  obtain ⟨A, hA⟩ : ∃ A, A = le 8 (version b g.isEdgeWeighted g.isNodeWeighted) ++ le 8 g.n ++ le 8 g.m := ⟨_, rfl⟩
  have hAl : A.length = 24 := by rw [hA]; simp [le_length]
  obtain ⟨N, hN⟩ : ∃ N, N = (storedOffsets b g).flatMap (le (sz b.e64)) := ⟨_, rfl⟩
  have hNl : N.length = (g.n + 1) * sz b.e64 := by rw [hN, flatMap_le_length, hlo, Nat.mul_comm]
  obtain ⟨E, hE⟩ : ∃ E, E = (elems g.edges).flatMap (le (sz b.n64)) := ⟨_, rfl⟩
  have hEl : E.length = g.m * sz b.n64 := by rw [hE, flatMap_le_length, elems_length, Nat.mul_comm]; rfl
  obtain ⟨W, hW⟩ : ∃ W, W = if g.isNodeWeighted then (elems g.nw).flatMap fun x => le (sz b.nw64) (bits (sz b.nw64) x)
    else [] := ⟨_, rfl⟩
  have hWl : W.length = if g.isNodeWeighted then g.n * sz b.nw64 else 0 := by
    rw [hW]
    split
    · rename_i h
      rw [weights_length, elems_length, (hf.nw h).1, Nat.mul_comm]
    · rfl
  obtain ⟨X, hX⟩ : ∃ X, X = if g.isEdgeWeighted then (elems g.ew).flatMap fun x => le (sz b.ew64) (bits (sz b.ew64) x)
    else [] := ⟨_, rfl⟩
  have hfile : write b g = A ++ N ++ E ++ W ++ X := by rw [file_eq b g hf.maxN, hA, hN, hE, hW, hX]
  rw [hfile]
  -- the offsets
  have r1 : readIds b'.e64 H.e64 ⟨A ++ N ++ E ++ W ++ X, page⟩ 24 (word (H.n + 1)) = .ok (storedOffsets b g) := by
    have e : A ++ N ++ E ++ W ++ X = A ++ (storedOffsets b g).flatMap (le (sz b.e64)) ++ (E ++ W ++ X) := by
      rw [hN]; simp only [List.append_assoc]
    rw [e, hH]
    refine readIds_ok hw.edge (fun x hx => ?_) page hAl.symm ?_
    · obtain ⟨u, -, rfl⟩ := List.mem_map.1 hx
      exact Nat.mod_lt _ (Nat.two_pow_pos _)
    · rw [hlo]; exact word_of_lt (by show g.n + 1 < _; omega)
  -- the edges
  have r2 : readIds b'.n64 H.n64 ⟨A ++ N ++ E ++ W ++ X, page⟩ H.edgesOffset H.m = .ok (elems g.edges) := by
    have e : A ++ N ++ E ++ W ++ X = A ++ N ++ (elems g.edges).flatMap (le (sz b.n64)) ++ (W ++ X) := by
      rw [hE]; simp only [List.append_assoc]
    rw [e, hH]
    refine readIds_ok hw.node (fun x hx => ?_) page ?_ ?_
    · obtain ⟨i, hi, rfl⟩ := mem_elems hx
      exact hf.targets i hi
    · rw [List.length_append, hAl, hNl]
      exact word_of_lt (by show 24 + (g.n + 1) * sz b.e64 < _; omega)
    · rw [elems_length]; rfl
  -- the node weights
  have r3 : (if H.hasNw then readWeights b'.nw64 H.nw64 ⟨A ++ N ++ E ++ W ++ X, page⟩ H.nwOffset H.n else .ok []) =
      .ok (if g.isNodeWeighted then elems g.nw else []) := by
    have hHn : H.hasNw = g.isNodeWeighted := by rw [hH]
    rw [hHn]
    split
    · rename_i h
      have e : A ++ N ++ E ++ W ++ X = A ++ N ++ E ++ ((elems g.nw).flatMap fun x => le (sz b.nw64) (bits (sz b.nw64) x))
          ++ X := by rw [hW, if_pos h]
      rw [e, hH]
      refine readWeights_ok (hw.nw h) (fun x hx => ?_) page ?_ ?_
      · obtain ⟨i, hi, rfl⟩ := mem_elems hx
        exact (hf.nw h).2 i ((hf.nw h).1 ▸ hi)
      · rw [List.length_append, List.length_append, hAl, hNl, hEl]
        exact word_of_lt (by show 24 + (g.n + 1) * sz b.e64 + g.m * sz b.n64 < _; omega)
      · rw [elems_length, (hf.nw h).1]
    · rfl
  -- the edge weights
  have r4 : (if H.hasEw then readWeights b'.ew64 H.ew64 ⟨A ++ N ++ E ++ W ++ X, page⟩ H.ewOffset H.m else .ok []) =
      .ok (if g.isEdgeWeighted then elems g.ew else []) := by
    have hHe : H.hasEw = g.isEdgeWeighted := by rw [hH]
    rw [hHe]
    split
    · rename_i h
      have e : A ++ N ++ E ++ W ++ X = A ++ N ++ E ++ W ++ ((elems g.ew).flatMap fun x => le (sz b.ew64) (bits (sz b.ew64) x))
          ++ [] := by rw [hX, if_pos h, List.append_nil]
      rw [e, hH]
      refine readWeights_ok (hw.ew h) (fun x hx => ?_) page ?_ ?_
      · obtain ⟨i, hi, rfl⟩ := mem_elems hx
        exact (hf.ew h).2 i ((hf.ew h).1 ▸ hi)
      · rw [List.length_append, List.length_append, List.length_append, hAl, hNl, hEl, hWl]
        exact word_of_lt (by
          show 24 + (g.n + 1) * sz b.e64 + g.m * sz b.n64 + (if g.isNodeWeighted then g.n * sz b.nw64 else 0) < _
          omega)
      · rw [elems_length, (hf.ew h).1]
    · rfl
  rw [r1, ok_bind, r2, ok_bind, r3, ok_bind, r4, ok_bind, pure_eq]

/-- The offsets are recovered if they are representable. -/
theorem offsets_ok {b b' : Build} {g : G} (hw : Wide b b' g) (hsize : g.nodes.size = g.n + 1)
    (hoff : 24 + (g.n + 1) * sz b.e64 + g.m * sz b.n64 < 2 ^ (8 * sz b.e64))
    (hle : ∀ u, u ≤ g.n → g.nodes.data u ≤ g.m) :
    (storedOffsets b g).map
        (Header.mapOffset ⟨g.isEdgeWeighted, g.isNodeWeighted, b.e64, b.n64, b.nw64, b.ew64, g.n, g.m⟩ b') =
      elems g.nodes := by
  unfold storedOffsets elems
  rw [List.map_map, hsize]
  apply List.map_congr_left
  intro u hu
  have hu' := hle u (by have := List.mem_range.1 hu; omega)
  have hp : 0 < sz b.n64 := by rcases sz_cases b.n64 with h | h <;> omega
  have hmul := Nat.mul_le_mul_right (sz b.n64) hu'
  have h64 := pow_sz_le b.e64
  have hbase : word (24 + (g.n + 1) * sz b.e64) % 2 ^ (8 * sz b.e64) = 24 + (g.n + 1) * sz b.e64 := by
    rw [word_of_lt (by omega), Nat.mod_eq_of_lt (by omega)]
  rw [Function.comp_apply, hbase, word_of_lt (by omega), Nat.mod_eq_of_lt (by omega)]
  unfold Header.mapOffset Header.edgesOffset
  dsimp only
  rw [word_of_lt (x := 24 + (g.n + 1) * sz b.e64) (by omega), subW_of_le (by omega) (by omega),
    Nat.add_sub_cancel_left, Nat.mul_div_cancel _ hp]
  apply Nat.mod_eq_of_lt
  have hmle : g.m ≤ g.m * sz b.n64 := Nat.le_mul_of_pos_right _ hp
  have hmono : 2 ^ (8 * sz b.e64) ≤ 2 ^ (8 * sz b'.e64) := by
    have := hw.edge
    cases h1 : b.e64 <;> cases h2 : b'.e64 <;> simp_all [sz]
  omega

/-! ### Reading by degree buckets -/

theorem copy_loop (h : Nat → Nat × Int) : ∀ (len a c : Nat) (s : Nat → Nat × Int),
    let r := ((List.range' a len).foldl (fun (s : Nat × (Nat → Nat × Int)) e => (s.1 + 1, upd s.2 s.1 (h e))) (c, s)).2
    (∀ j, j < len → r (c + j) = h (a + j)) ∧ ∀ q, (q < c ∨ c + len ≤ q) → r q = s q
  | 0, a, c, s => ⟨fun j hj => absurd hj (Nat.not_lt_zero j), fun _ _ => rfl⟩
  | len + 1, a, c, s => by
    obtain ⟨h1, h2⟩ := copy_loop h len (a + 1) (c + 1) (upd s c (h a))
    rw [List.range'_succ, List.foldl_cons]
    dsimp only at h1 h2 ⊢
    refine ⟨fun j hj => ?_, fun q hq => ?_⟩
    · cases j with
      | zero => rw [show c + 0 = c from rfl, show a + 0 = a from rfl, h2 c (Or.inl (by omega)), upd_same]
      | succ j =>
        rw [show c + (j + 1) = c + 1 + j by omega, h1 j (by omega)]
        congr 1; omega
    · rw [h2 q (by omega), upd_ne _ _ (by omega)]

theorem copy_all (g : Permute.Csr) (p : NodePermutations) (nodes D : Nat → Nat)
    (hD : ∀ u, D u = g.nodes (p.newToOld u + 1) - g.nodes (p.newToOld u)) :
    ∀ (l : List Nat) (s : Nat → Nat × Int), l.Nodup → (∀ u ∈ l, nodes u = psum D u) →
    let r := l.foldl (copyEdges g p nodes) s
    (∀ u ∈ l, ∀ j, j < D u → r (psum D u + j) =
      (p.oldToNew (g.edges (g.nodes (p.newToOld u) + j)).1, (g.edges (g.nodes (p.newToOld u) + j)).2)) ∧
    ∀ q, (∀ u ∈ l, ¬ (psum D u ≤ q ∧ q < psum D (u + 1))) → r q = s q
  | [], s, _, _ => ⟨fun u hu => absurd hu List.not_mem_nil, fun _ _ => rfl⟩
  | x :: l, s, hnd, hs => by
    obtain ⟨hx, hnd⟩ := List.nodup_cons.1 hnd
    have hsx := hs x List.mem_cons_self
    have hpx : psum D (x + 1) = psum D x + D x := rfl
    obtain ⟨a1, a2⟩ := copy_loop (fun e => (p.oldToNew (g.edges e).1, (g.edges e).2)) (D x) (g.nodes (p.newToOld x))
      (nodes x) s
    have hc : copyEdges g p nodes s x = ((List.range' (g.nodes (p.newToOld x)) (D x)).foldl
        (fun (s : Nat × (Nat → Nat × Int)) e => (s.1 + 1, upd s.2 s.1 (p.oldToNew (g.edges e).1, (g.edges e).2)))
        (nodes x, s)).2 := by
      rw [hD]; rfl
    rw [← hc] at a1 a2
    obtain ⟨b1, b2⟩ := copy_all g p nodes D hD l (copyEdges g p nodes s x) hnd fun u hu =>
      hs u (List.mem_cons_of_mem _ hu)
    rw [List.foldl_cons]
    refine ⟨fun u hu j hj => ?_, fun q hq => ?_⟩
    · by_cases hux : u = x
      · subst hux
        rw [b2 _ fun v hv hin => ?_, ← hsx, a1 j hj]
        have := psum_disjoint (f := D) (a := u) (q := psum D u + j) (by omega) hin
        exact hx (this ▸ hv)
      · exact b1 u ((List.mem_cons.1 hu).resolve_left hux) j hj
    · rw [b2 q fun u hu => hq u (List.mem_cons_of_mem _ hu), a2 q]
      have := hq x List.mem_cons_self
      omega

theorem shift_loop (F : Nat → Nat) (W : Nat → Int) : ∀ (l : List Nat) (s : (Nat → Nat) × (Nat → Int)),
    let r := l.foldl (fun (s : (Nat → Nat) × (Nat → Int)) u => (upd s.1 (u + 1) (F u), upd s.2 u (W u))) s
    ∀ u, u ∈ l → r.1 (u + 1) = F u ∧ r.2 u = W u := by
  intro l
  induction l using List.reverseRecOn with
  | nil => intro s r u hu; exact absurd hu List.not_mem_nil
  | append_singleton l x ih =>
    intro s r u hu
    have hr : r = (l ++ [x]).foldl (fun (s : (Nat → Nat) × (Nat → Int)) u =>
      (upd s.1 (u + 1) (F u), upd s.2 u (W u))) s := rfl
    rw [hr, List.foldl_append, List.foldl_cons, List.foldl_nil]
    by_cases hux : u = x
    · subst hux; exact ⟨upd_same .., upd_same ..⟩
    · have := ih s u ((List.mem_append.1 hu).resolve_right fun h => hux (List.mem_singleton.1 h))
      exact ⟨(upd_ne _ _ (by omega)).trans this.1, (upd_ne _ _ hux).trans this.2⟩

end Verif.Binary
