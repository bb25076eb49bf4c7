import Verif.Binary.Props

/-!
# C62: files with compressed graphs
-/

namespace Verif.Binary

/-! ## Specification -/

/-- All numbers of the graph are values of their types. -/
structure Storable (o : Options) (n : Nat) (g : Compressed) : Prop where
  options : o.highDegreeThreshold < 2 ^ 64 ∧ o.highDegreePartLength < 2 ^ 64 ∧ o.intervalLength < 2 ^ 64
  n : n < 2 ^ 64
  width : g.nodeWidth < 256
  lengths : g.nodes.length < 2 ^ 64 ∧ g.edges.length < 2 ^ 64 ∧ g.nw.length < 2 ^ 64
  nw : ∀ x ∈ g.nw, 0 ≤ x ∧ x < 2 ^ (8 * sz o.build.nw64 - 1)
  m : g.m < 2 ^ (8 * sz o.build.e64)
  totalEw : 0 ≤ g.totalEw ∧ g.totalEw < 2 ^ (8 * sz o.build.ew64 - 1)
  maxDegree : g.maxDegree < 2 ^ (8 * sz o.build.n64)
  counts : g.highDegreeNodes < 2 ^ 64 ∧ g.highDegreeParts < 2 ^ 64 ∧ g.intervalNodes < 2 ^ 64 ∧ g.intervals < 2 ^ 64

/-! ## Readers -/

theorem take?_ok {k : Nat} {l s : List Nat} (h : l.length = k) : take? k (l ++ s) = .ok (l, s) := by
  unfold take?
  rw [if_pos (by rw [List.length_append]; omega), List.take_left' h, List.drop_left' h]

theorem readInt?_ok {k x : Nat} (s : List Nat) (h : x < 2 ^ (8 * k)) : readInt? k (le k x ++ s) = .ok (x, s) := by
  unfold readInt?
  rw [take?_ok (le_length k x), ok_bind]
  show pure _ = _
  rw [pure_eq, ofLe_le k x h]

theorem readInts?_ok {k : Nat} : ∀ {l : List Nat} (s : List Nat), (∀ x ∈ l, x < 2 ^ (8 * k)) →
    readInts? k l.length (l.flatMap (le k) ++ s) = .ok (l, s)
  | [], s, _ => rfl
  | x :: l, s, h => by
    rw [List.length_cons, readInts?, List.flatMap_cons, List.append_assoc, readInt?_ok _ (h x List.mem_cons_self), ok_bind]
    dsimp only
    rw [readInts?_ok s fun y hy => h y (List.mem_cons_of_mem _ hy), ok_bind]
    rfl

theorem flag_bits : ∀ a b c d e f g h i j : Bool,
    let x := a.toNat <<< 9 ||| b.toNat <<< 8 ||| c.toNat <<< 7 ||| d.toNat <<< 6 |||
      e.toNat <<< 5 ||| f.toNat <<< 4 ||| g.toNat <<< 3 ||| h.toNat <<< 2 ||| i.toNat <<< 1 ||| j.toNat
    x < 2 ^ 16 ∧ (decide (x &&& 1 ≠ 0) = j) ∧ (decide (x &&& 2 ≠ 0) = i) ∧ (decide (x &&& 2 ^ 2 ≠ 0) = h) ∧
    (decide (x &&& 2 ^ 3 ≠ 0) = g) ∧ (decide (x &&& 2 ^ 4 ≠ 0) = f) ∧ (decide (x &&& 2 ^ 5 ≠ 0) = e) ∧
    (decide (x &&& 64 ≠ 0) = d) ∧ (decide (x &&& 2 ^ 7 ≠ 0) = c) ∧ (decide (x &&& 2 ^ 8 ≠ 0) = b) ∧
    (decide (x &&& 2 ^ 9 ≠ 0) = a) := by
  decide +kernel

theorem flags_lt (o : Options) (x y z : Bool) : flags o x y z < 2 ^ (8 * 2) := (flag_bits _ _ _ _ _ _ _ _ _ _).1
theorem flags_nw (o : Options) (x y z : Bool) : decide (flags o x y z &&& 1 ≠ 0) = x :=
  (flag_bits _ _ _ _ _ _ _ _ _ _).2.1
theorem flags_ew (o : Options) (x y z : Bool) : decide (flags o x y z &&& 2 ≠ 0) = y :=
  (flag_bits _ _ _ _ _ _ _ _ _ _).2.2.1
theorem flags_sorted (o : Options) (x y z : Bool) : decide (flags o x y z &&& 64 ≠ 0) = z :=
  (flag_bits _ _ _ _ _ _ _ _ _ _).2.2.2.2.2.2.2.1

theorem verify_iff (o o' : Options) (x y z : Bool) :
    verify o' (flags o x y z) o.highDegreeThreshold o.highDegreePartLength o.intervalLength = true ↔ o = o' := by
  obtain ⟨-, -, -, h2, h3, h4, h5, -, h7, h8, h9⟩ := flag_bits o.streamVByte o.interval o.highDegree z o.build.ew64
    o.build.nw64 o.build.e64 o.build.n64 y x
  unfold verify
  dsimp only
  rw [show (decide (flags o x y z &&& 2 ^ 2 ≠ 0)) = o.build.n64 from h2,
    show (decide (flags o x y z &&& 2 ^ 3 ≠ 0)) = o.build.e64 from h3,
    show (decide (flags o x y z &&& 2 ^ 4 ≠ 0)) = o.build.nw64 from h4,
    show (decide (flags o x y z &&& 2 ^ 5 ≠ 0)) = o.build.ew64 from h5,
    show (decide (flags o x y z &&& 2 ^ 7 ≠ 0)) = o.highDegree from h7,
    show (decide (flags o x y z &&& 2 ^ 8 ≠ 0)) = o.interval from h8,
    show (decide (flags o x y z &&& 2 ^ 9 ≠ 0)) = o.streamVByte from h9]
  obtain ⟨⟨a, b, c, d⟩, e, f, g, h, i, j⟩ := o
  obtain ⟨⟨a', b', c', d'⟩, e', f', g', h', i', j'⟩ := o'
  simp only [Bool.and_eq_true, beq_iff_eq, Options.mk.injEq, Build.mk.injEq]
  tauto

/-! ## Theorems -/

theorem signed_bits_wide {b : Bool} {x : Int} (h0 : 0 ≤ x) (h : x < 2 ^ (8 * sz b - 1)) :
    signed (sz b) (bits 8 x % 2 ^ (8 * sz b)) = x := by
  have h1 : (2 : Int) ^ (8 * sz b - 1) ≤ 2 ^ (8 * sz b) := by cases b <;> decide
  have h2 : (2 : Int) ^ (8 * sz b) ≤ 2 ^ (8 * 8) := by cases b <;> decide
  have e : bits 8 x % 2 ^ (8 * sz b) = bits (sz b) x := by
    rw [bits_of_nonneg h0 (by omega), bits_of_nonneg h0 (by omega)]
    apply Nat.mod_eq_of_lt
    have : ((2 ^ (8 * sz b) : Nat) : Int) = 2 ^ (8 * sz b) := by push_cast; rfl
    omega
  rw [e, signed_bits h0 h]

/-- The reader up to the comparison of the options. -/
theorem readHeader {o : Options} {n : Nat} {g : Compressed} (hasNw : Bool) (hs : Storable o n g) (o' : Options) :
    (o ≠ o' → readCompressed o' (writeCompressed o n hasNw g) = .error .exit) ∧
    (o = o' → readCompressed o' (writeCompressed o n hasNw g) = .ok { g with nw := if hasNw then g.nw else [] }) := by
  obtain ⟨⟨o1, o2, o3⟩, hn, hw, ⟨l1, l2, l3⟩, hnw, hm, ⟨t1, t2⟩, hd, ⟨c1, c2, c3, c4⟩⟩ := hs
  have p1 := pow_sz_le o.build.e64
  have p2 := pow_sz_le o.build.n64
  have e64 : (2 : Nat) ^ (8 * 8) = 2 ^ 64 := rfl
  have hv := verify_iff o o' hasNw g.edgeWeighted g.sorted
  have hbits := bits_lt 8 g.totalEw
  have hmag : magic < 2 ^ (8 * 8) := by decide
  unfold writeCompressed readCompressed
  simp only [List.append_assoc]
  rw [readInt?_ok _ hmag, ok_bind]
  dsimp only
  rw [if_neg (by simp), readInt?_ok _ (flags_lt ..), ok_bind]
  dsimp only
  rw [readInt?_ok _ (by omega), ok_bind]
  dsimp only
  rw [readInt?_ok _ (by omega), ok_bind]
  dsimp only
  rw [readInt?_ok _ (by omega), ok_bind]
  dsimp only
  rw [readInt?_ok _ (by omega), ok_bind]
  dsimp only
  rw [readInt?_ok _ (by omega), ok_bind]
  dsimp only
  rw [readInt?_ok _ hbits, ok_bind]
  dsimp only
  rw [readInt?_ok _ (by omega), ok_bind]
  dsimp only
  rw [readInt?_ok _ (by omega), ok_bind]
  dsimp only
  rw [readInt?_ok _ (by omega), ok_bind]
  dsimp only
  rw [readInt?_ok _ (by omega), ok_bind]
  dsimp only
  rw [readInt?_ok _ (by omega), ok_bind]
  dsimp only
  constructor
  · intro hne
    rw [if_pos]
    have : ¬ verify o' (flags o hasNw g.edgeWeighted g.sorted) o.highDegreeThreshold o.highDegreePartLength
      o.intervalLength = true := fun h => hne (hv.1 h)
    simpa using this
  · intro heq
    subst heq
    rw [if_neg (by simp [hv.2 rfl]), readInt?_ok _ (show g.nodeWidth < 2 ^ (8 * 1) from hw), ok_bind]
    dsimp only
    rw [readInt?_ok _ (by omega), ok_bind]
    dsimp only
    rw [take?_ok rfl, ok_bind]
    dsimp only
    rw [readInt?_ok _ (by omega), ok_bind]
    dsimp only
    rw [take?_ok rfl, ok_bind]
    dsimp only
    have hfl := flags_nw o hasNw g.edgeWeighted g.sorted
    have hnws : (if flags o hasNw g.edgeWeighted g.sorted &&& 1 ≠ 0 then do
          let (size, s) ← readInt? 8 (if hasNw then le 8 g.nw.length ++
            g.nw.flatMap fun x => le (sz o.build.nw64) (bits (sz o.build.nw64) x) else [])
          let (l, _) ← readInts? (sz o.build.nw64) size s
          return l.map (signed (sz o.build.nw64))
        else .ok []) = (.ok (if hasNw then g.nw else []) : Res (List Int)) := by
      cases hasNw with
      | false => rw [if_neg (by simpa using hfl)]; rfl
      | true =>
        rw [if_pos (by simpa using hfl), if_pos rfl, if_pos rfl, readInt?_ok _ (by omega), ok_bind]
        dsimp only
        have := readInts?_ok (k := sz o.build.nw64) (l := g.nw.map (bits (sz o.build.nw64))) [] fun x hx => by
          obtain ⟨y, -, rfl⟩ := List.mem_map.1 hx
          exact bits_lt _ _
        rw [List.length_map, List.append_nil, List.flatMap_map] at this
        rw [this, ok_bind]
        dsimp only
        rw [pure_eq, List.map_map]
        congr 1
        conv => rhs; rw [← List.map_id g.nw]
        apply List.map_congr_left
        intro x hx
        exact signed_bits (hnw x hx).1 (hnw x hx).2
    rw [hnws, ok_bind, pure_eq, Nat.mod_eq_of_lt hm, Nat.mod_eq_of_lt hd, signed_bits_wide t1 t2,
      flags_ew o hasNw g.edgeWeighted g.sorted, flags_sorted o hasNw g.edgeWeighted g.sorted]

/-- **C62 (round trip).**  A compressed graph that was written to a file is read back unchanged by a program with the
same options: the same bytes of the offsets and of the compressed neighbourhoods, the same node weights (if the graph
is weighted) and the same numbers.  So all answers of the graph are the same. -/
theorem C62_roundtrip (o : Options) (n : Nat) (hasNw : Bool) (g : Compressed) (hs : Storable o n g)
    (hnw : hasNw = false → g.nw = []) : readCompressed o (writeCompressed o n hasNw g) = .ok g := by
  rw [(readHeader hasNw hs o).2 rfl]
  cases hasNw with
  | false =>
    have := hnw rfl
    obtain ⟨⟩ := g
    simp only [Bool.false_eq_true, if_false] at this ⊢
    rw [this]
  | true => rfl

/-- Options and a graph for the examples. -/
def exOptions : Options := ⟨⟨false, false, false, true⟩, true, true, false, 10000, 1000, 3⟩
/-- A compressed path with three nodes and node weights. -/
def exCompressed : Compressed :=
  ⟨1, [0, 2, 5, 7, 0, 0, 0], [1, 130, 7, 66, 1, 2, 9], [3, 1, 2], true, false, 4, 20, 2, 0, 0, 0, 0⟩

example : Storable exOptions 3 exCompressed ∧
    readCompressed exOptions (writeCompressed exOptions 3 true exCompressed) = .ok exCompressed := by
  refine ⟨⟨by decide, by decide, by decide, by decide, by decide, by decide, by decide, by decide, by decide⟩, ?_⟩
  decide +kernel

/-- **C62 (all ones).**  Node weights that are all 1 are not stored (the graph answers that it has no node weights),
everything else is. -/
theorem C62_roundtrip_unweighted (o : Options) (n : Nat) (g : Compressed) (hs : Storable o n g) :
    readCompressed o (writeCompressed o n false g) = .ok { g with nw := [] } :=
  (readHeader false hs o).2 rfl

/-- **C62 (options).**  A program with any other option that matters for the encoding (a width, a compression
technique, or one of its lengths) exits with an error message and does not decode the file. -/
theorem C62_other_options_exit (o o' : Options) (n : Nat) (hasNw : Bool) (g : Compressed) (hs : Storable o n g)
    (h : o ≠ o') : readCompressed o' (writeCompressed o n hasNw g) = .error .exit :=
  (readHeader hasNw hs o').1 h

example : readCompressed { exOptions with intervalLength := 4 } (writeCompressed exOptions 3 true exCompressed) =
    .error .exit ∧ isCompressed (writeCompressed exOptions 3 true exCompressed) = true ∧
    readCompressed exOptions ((writeCompressed exOptions 3 true exCompressed).take 130) = .error .undefined := by
  decide +kernel

/-- **C62 (recognition).**  Every written file is recognised. -/
theorem C62_recognised (o : Options) (n : Nat) (hasNw : Bool) (g : Compressed) :
    isCompressed (writeCompressed o n hasNw g) = true := by
  unfold isCompressed writeCompressed
  simp only [List.append_assoc]
  rw [readInt?_ok _ (by decide)]
  simp [le_length]

/-- **C62 (recognition).**  A file of bytes that is recognised begins with the letter `S`; so no METIS file (they
begin with a digit, a space or `%`) and no ParHIP file is taken for a compressed graph. -/
theorem C62_first_byte (file : List Nat) (hbytes : ∀ x ∈ file, x < 256) (h : isCompressed file = true) :
    file.head? = some 'S'.toNat := by
  unfold isCompressed at h
  rw [Bool.and_eq_true, decide_eq_true_iff] at h
  obtain ⟨h8, h⟩ := h
  cases file with
  | nil => exact absurd h8 (by decide)
  | cons x l =>
    unfold readInt? take? at h
    rw [if_pos h8, ok_bind] at h
    have h : ofLe ((x :: l).take 8) = magic := of_decide_eq_true h
    rw [List.take_succ_cons, ofLe] at h
    have hx := hbytes x List.mem_cons_self
    have : magic % 256 = 83 := by decide
    rw [List.head?_cons]
    have hS : 'S'.toNat = 83 := by decide
    rw [hS]
    congr 1
    omega

/-- **C62 (recognition).**  No ParHIP file is recognised as a compressed graph. -/
theorem C62_parhip_not_recognised (b : Build) (g : CsrGraph.G) : isCompressed (write b g) = false := by
  have hv : version b g.isEdgeWeighted g.isNodeWeighted < 2 ^ (8 * 8) := lt_trans (version_lt b _ _) (by decide)
  obtain ⟨R, hR⟩ : ∃ R, write b g = le 8 (version b g.isEdgeWeighted g.isNodeWeighted) ++ R :=
    ⟨_, by unfold write; simp only [List.append_assoc]; rfl⟩
  unfold isCompressed
  rw [hR, readInt?_ok _ hv]
  have : version b g.isEdgeWeighted g.isNodeWeighted ≠ magic := by
    have := version_lt b g.isEdgeWeighted g.isNodeWeighted
    have : 64 < magic := by decide
    omega
  simp [this]

end Verif.Binary
