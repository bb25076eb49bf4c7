import Verif.SparseGains.Spec
import Verif.CsrGraph.Props

namespace Verif.SparseGains
open Verif.CompactMap Verif.Math Verif.CsrGraph

/-! # Where the tables are -/

/-- A predicate that holds on a prefix: counting gives the length of the prefix. -/
theorem lt_countP {p : Nat → Bool} : ∀ {n : Nat}, (∀ u v, u ≤ v → v < n → p v = true → p u = true) →
    ∀ u, u < n → (u < (List.range n).countP p ↔ p u = true)
  | 0, _, u, hu => absurd hu (Nat.not_lt_zero u)
  | n + 1, h, u, hu => by
    have ih := lt_countP (p := p) (n := n) fun a b hab hb => h a b hab (by omega)
    have hle := List.countP_le_length (p := p) (l := List.range n)
    rw [List.length_range] at hle
    rw [List.range_succ, List.countP_append, List.countP_singleton]
    by_cases hp : p n = true
    · rw [if_pos hp]
      have hall : ∀ v, v < n → p v = true := fun v hv => h v n (by omega) (by omega) hp
      have : (List.range n).countP p = n := by
        rcases Nat.eq_zero_or_pos n with h0 | h0
        · subst h0; rfl
        · have := (ih (n - 1) (by omega)).2 (hall _ (by omega)); omega
      constructor
      · intro _; exact h u n (by omega) (by omega) hp
      · intro _; omega
    · rw [if_neg hp]
      by_cases hun : u = n
      · subst hun
        constructor
        · intro h'; omega
        · intro h'; exact absurd h' hp
      · exact ih u (by omega)

/-- First node of a bucket. -/
def first (n : Nat) (deg : Nat → Nat) (b : Nat) : Nat := (List.range n).countP fun u => bucketIdx (deg u) < b

/-- Size of the tables of the buckets before `b`. -/
def tabs (bsize : Nat → Nat) : Nat → Nat
  | 0 => 0
  | b + 1 => tabs bsize b + bsize b * 2 ^ b

section
variable {n : Nat} {deg bsize : Nat → Nat} {nb : Nat}

theorem Sorted.lt_first (h : Sorted n deg bsize nb) {u : Nat} (hu : u < n) (b : Nat) :
    u < first n deg b ↔ bucketIdx (deg u) < b := by
  unfold first
  rw [lt_countP (p := fun u => decide (bucketIdx (deg u) < b)) _ u hu]
  · simp
  · intro a c hac hc hp
    have := h.mono a c hac hc
    simp only [decide_eq_true_eq] at hp ⊢
    omega

theorem Sorted.first_succ (h : Sorted n deg bsize nb) (b : Nat) : first n deg (b + 1) = first n deg b + bsize b := by
  rw [h.size b]
  unfold first
  induction List.range n with
  | nil => rfl
  | cons a l ih =>
    simp only [List.countP_cons, decide_eq_true_eq] at ih ⊢
    split <;> split <;> split <;> omega

theorem first_zero : first n deg 0 = 0 := by
  unfold first
  rw [List.countP_eq_zero]
  simp

theorem first_le (b : Nat) : first n deg b ≤ n := by
  have := List.countP_le_length (p := fun u => decide (bucketIdx (deg u) < b)) (l := List.range n)
  rwa [List.length_range] at this

theorem Sorted.first_mono (h : Sorted n deg bsize nb) {a b : Nat} (hab : a ≤ b) : first n deg a ≤ first n deg b := by
  induction b with
  | zero => rw [Nat.le_zero.1 hab]
  | succ b ih =>
    rcases Nat.eq_or_lt_of_le hab with rfl | h'
    · exact Nat.le_refl _
    · rw [h.first_succ]; have := ih (by omega); omega

theorem tabs_mono {a b : Nat} (hab : a ≤ b) : tabs bsize a ≤ tabs bsize b := by
  induction b with
  | zero => rw [Nat.le_zero.1 hab]
  | succ b ih =>
    rcases Nat.eq_or_lt_of_le hab with rfl | h'
    · exact Nat.le_refl _
    · have := ih (by omega)
      show _ ≤ tabs bsize b + _
      omega

theorem Sorted.le_thirty (h : Sorted n deg bsize nb) {u : Nat} (hu : u < n) : bucketIdx (deg u) ≤ 30 := by
  have hd := h.deg u hu
  rw [bucketIdx_eq (by omega)]
  split
  · omega
  · have := (Nat.log2_lt (by omega)).2 hd
    omega

theorem Sorted.deg_lt (h : Sorted n deg bsize nb) {u : Nat} (hu : u < n) : deg u < 2 ^ bucketIdx (deg u) := by
  have hd := h.deg u hu
  rw [bucketIdx_eq (by omega)]
  split
  · omega
  · exact Nat.lt_log2_self

theorem Sorted.deg_ge (h : Sorted n deg bsize nb) {u : Nat} (hu : u < n) : 2 ^ bucketIdx (deg u) ≤ 2 * deg u ∨ deg u = 0 := by
  have hd := h.deg u hu
  rw [bucketIdx_eq (by omega)]
  split
  · omega
  · left
    rw [Nat.pow_succ]
    have := Nat.log2_self_le (n := deg u) (by omega)
    omega

/-- A bucket that begins before the end of the nodes exists. -/
theorem Sorted.first_lt (h : Sorted n deg bsize nb) {b : Nat} (hb : first n deg b < n) :
    b ≤ bucketIdx (deg (first n deg b)) := by
  have := (h.lt_first hb b).not.1 (Nat.lt_irrefl _)
  omega

theorem lowest (b : Nat) (hb : b ≤ 30) : lowestDegreeInBucket? (b + 1) = some (2 ^ b) := by
  unfold lowestDegreeInBucket?
  rw [if_pos (by omega), Nat.shiftRight_eq_div_pow, Nat.pow_succ]
  simp

theorem Sorted.layoutLoop_ok (h : Sorted n deg bsize nb) (threshold : Nat) : ∀ (fuel b : Nat) (off : Nat → Nat),
    31 < b + fuel → (∀ j, j < b → off j = tabs bsize j) →
    (∀ j, j < b → first n deg j < n ∧ deg (first n deg j) < threshold) →
    ∃ b' off', layoutLoop n threshold deg bsize fuel b (first n deg b) (tabs bsize b) off =
        some (b', first n deg b', tabs bsize b', off') ∧ (∀ j, j < b' → off' j = tabs bsize j) ∧
      (∀ j, j < b' → first n deg j < n ∧ deg (first n deg j) < threshold)
  | 0, b, off, hf, h1, h2 => by
    cases b with
    | zero => omega
    | succ b =>
      obtain ⟨h3, _⟩ := h2 b (by omega)
      have := h.first_lt h3
      have := h.le_thirty h3
      omega
  | fuel + 1, b, off, hf, h1, h2 => by
    unfold layoutLoop
    by_cases hc : first n deg b < n ∧ deg (first n deg b) < threshold
    · have hb : b ≤ 30 := Nat.le_trans (h.first_lt hc.1) (h.le_thirty hc.1)
      rw [if_pos hc, lowest b hb]
      simp only [Option.bind_eq_bind, Option.bind_some]
      rw [← h.first_succ]
      refine h.layoutLoop_ok threshold fuel (b + 1) (upd off b (tabs bsize b)) (by omega) ?_ ?_
      · intro j hj
        by_cases hjb : j = b
        · subst hjb; rw [upd_same]
        · rw [upd_ne _ _ hjb]; exact h1 j (by omega)
      · intro j hj
        by_cases hjb : j = b
        · subst hjb; exact hc
        · exact h2 j (by omega)
    · rw [if_neg hc]
      exact ⟨b, off, rfl, h1, h2⟩

theorem Sorted.initBuckets_eq (h : Sorted n deg bsize nb) (i : Nat) : initBuckets n nb bsize i = first n deg i := by
  have key : ∀ m, ∀ i, i ≤ m → (List.range m).foldl (fun a b => upd a (b + 1) (a b + bsize b)) (fun _ => 0) i = first n deg i := by
    intro m
    induction m with
    | zero => intro i hi; rw [Nat.le_zero.1 hi, first_zero]; rfl
    | succ m ih =>
      intro i hi
      rw [List.range_succ, List.foldl_append]
      show upd _ (m + 1) _ i = _
      by_cases him : i = m + 1
      · subst him; rw [upd_same, ih m (Nat.le_refl _), h.first_succ]
      · rw [upd_ne _ _ him]; exact ih i (by omega)
  unfold initBuckets
  by_cases hi : nb ≤ i
  · simp only [hi, if_true]
    unfold first
    symm
    have := List.countP_eq_length (p := fun u => decide (bucketIdx (deg u) < i)) (l := List.range n)
    rw [List.length_range] at this
    refine this.2 ?_
    intro u hu
    have := h.num u (List.mem_range.1 hu)
    simp only [decide_eq_true_eq]
    omega
  · simp only [hi, if_false]
    exact key nb i (by omega)

theorem findInner_spec {bkt : Nat → Nat} {u t : Nat} (hb : ∀ b, u < bkt b ↔ t < b) : ∀ (i b : Nat), b ≤ t →
    b ≤ findInner bkt u i b ∧ findInner bkt u i b ≤ t ∧ (0 < i → b < t → b < findInner bkt u i b)
  | 0, b, hbt => ⟨Nat.le_refl _, hbt, fun h => absurd h (Nat.lt_irrefl 0)⟩
  | i + 1, b, hbt => by
    unfold findInner
    by_cases hc : u ≥ bkt (b + 1)
    · rw [if_pos hc]
      have : ¬ t < b + 1 := fun h' => by have := (hb (b + 1)).2 h'; omega
      obtain ⟨h1, h2, _⟩ := findInner_spec hb i (b + 1) (by omega)
      exact ⟨by omega, h2, by omega⟩
    · rw [if_neg hc]
      have : t < b + 1 := (hb (b + 1)).1 (by omega)
      obtain ⟨h1, h2, _⟩ := findInner_spec hb i b hbt
      exact ⟨h1, h2, by omega⟩

theorem findOuter_spec {bkt : Nat → Nat} {u t : Nat} (hb : ∀ b, u < bkt b ↔ t < b) : ∀ (fuel b : Nat), b ≤ t → t < b + fuel →
    findOuter bkt u fuel b = some t
  | 0, b, h1, h2 => by omega
  | fuel + 1, b, h1, h2 => by
    unfold findOuter
    by_cases hc : u ≥ bkt (b + 1)
    · rw [if_pos hc]
      have : ¬ t < b + 1 := fun h' => by have := (hb (b + 1)).2 h'; omega
      obtain ⟨a1, a2, a3⟩ := findInner_spec hb 8 b h1
      have := a3 (by omega) (by omega)
      exact findOuter_spec hb fuel _ a2 (by omega)
    · rw [if_neg hc]
      have : t < b + 1 := (hb (b + 1)).1 (by omega)
      congr 1; omega
end

/-- The layout: table of node `u` at `start u` with `2 ^ p u` entries, behind the tables `k` entries per node. -/
structure Lay (g : Graph) (k : Nat) (L : Layout) (gc : Nat) (start p : Nat → Nat) : Prop where
  kk : L.k = k
  thr : L.thr ≤ g.n
  idx : ∀ u, u < L.thr → indexDense? L u = some (start u, 2 ^ p u)
  room : ∀ u, u < L.thr → (g.adj u).length < 2 ^ p u
  disj : ∀ u v, u < v → v < L.thr → start u + 2 ^ p u ≤ start v
  below : ∀ u, u < L.thr → start u + 2 ^ p u ≤ L.sparseOff
  size : L.sparseOff + (g.n - L.thr) * k ≤ gc

theorem initLayout_ok {W k threshold : Nat} {sorted : Bool} {bsize : Nat → Nat} {nb : Nat} {oldOff : Nat → Nat} {g : Graph}
    (hk : 1 ≤ k) (hk' : k < 2 ^ 32) (hs : sorted = true → Sorted g.n (fun u => (g.adj u).length) bsize nb) :
    ∃ L gc start p, initLayout? W k threshold sorted bsize nb oldOff g = some (L, gc) ∧ Lay g k L gc start p ∧
      L.W = W ∧ k ≤ 2 ^ L.bits ∧ (∀ j, k ≤ 2 ^ j → L.bits ≤ j) ∧ (∀ u, u < L.thr → (g.adj u).length < 2 * threshold) := by
  obtain ⟨bits, hb1, hb2, hb3⟩ := ceilLog2_spec (w := 32) (x := k) (by omega) hk'
  cases sorted with
  | false =>
    refine ⟨Layout.mk W g.n k 0 0 (initBuckets g.n nb bsize) (upd oldOff 0 0) bits 0, g.n * k, fun _ => 0, fun _ => 0, ?_, ⟨rfl, Nat.zero_le _, ?_, ?_, ?_, ?_, ?_⟩, rfl, hb2, hb3, ?_⟩
    · unfold initLayout?
      rw [hb1]
      rfl
    all_goals simp
  | true =>
    have h := hs rfl
    obtain ⟨b, off, h1, h2, h3⟩ := h.layoutLoop_ok threshold numDegreeBuckets 0 (upd oldOff 0 0) (by decide)
      (fun j hj => absurd hj (Nat.not_lt_zero j)) (fun j hj => absurd hj (Nat.not_lt_zero j))
    rw [first_zero] at h1
    have h1 : layoutLoop g.n threshold _ bsize numDegreeBuckets 0 0 0 _ = _ := h1
    refine ⟨Layout.mk W g.n k (first g.n (fun u => (g.adj u).length) b) b
          (initBuckets g.n nb bsize) (fun i => if b ≤ i then tabs bsize b else off i) bits
          (if b ≤ b then tabs bsize b else off b), tabs bsize b + (g.n - first g.n (fun u => (g.adj u).length) b) * k, fun u => tabs bsize (bucketIdx (g.adj u).length) +
        (u - first g.n (fun u => (g.adj u).length) (bucketIdx (g.adj u).length)) * 2 ^ bucketIdx (g.adj u).length,
      fun u => bucketIdx (g.adj u).length, ?_, ⟨rfl, first_le b, ?_, ?_, ?_, ?_, ?_⟩, rfl, hb2, hb3, ?_⟩
    · unfold initLayout?
      rw [hb1]
      simp only [Option.bind_eq_bind, Option.bind_some, if_true]
      rw [h1]
      simp only [Option.bind_some]
    · intro u hu
      have hu : u < first g.n (fun u => (g.adj u).length) b := hu
      have hun : u < g.n := Nat.lt_of_lt_of_le hu (first_le b)
      have hb : bucketIdx (g.adj u).length < b := (h.lt_first hun b).1 hu
      have h30 := h.le_thirty hun
      have hfb : findBucket? (Layout.mk W g.n k (first g.n (fun u => (g.adj u).length) b) b
          (initBuckets g.n nb bsize) (fun i => if b ≤ i then tabs bsize b else off i) bits
          (if b ≤ b then tabs bsize b else off b)) u = some (bucketIdx (g.adj u).length) := by
        unfold findBucket?
        refine findOuter_spec (t := bucketIdx (g.adj u).length) ?_ _ _ (Nat.zero_le _) ?_
        · intro c
          show u < initBuckets g.n nb bsize c ↔ _
          rw [h.initBuckets_eq c]
          exact h.lt_first hun c
        · unfold numDegreeBuckets; omega
      unfold indexDense?
      rw [hfb]
      simp only [Option.bind_eq_bind, Option.bind_some]
      rw [lowest _ h30]
      simp only [Option.bind_some]
      rw [if_neg (by omega), h2 _ hb, h.initBuckets_eq]
    · intro u hu
      have hu : u < first g.n (fun u => (g.adj u).length) b := hu
      exact h.deg_lt (Nat.lt_of_lt_of_le hu (first_le b))
    · intro u v huv hv
      have hv : v < first g.n (fun u => (g.adj u).length) b := hv
      have hvn : v < g.n := Nat.lt_of_lt_of_le hv (first_le b)
      have hun : u < g.n := by omega
      have hm := h.mono u v (by omega) hvn
      have hu1 := (h.lt_first hun (bucketIdx (g.adj u).length + 1)).2 (Nat.lt_succ_self _)
      rw [h.first_succ] at hu1
      have hu0 := (h.lt_first hun (bucketIdx (g.adj u).length)).not.2 (Nat.lt_irrefl _)
      have hv0 := (h.lt_first hvn (bucketIdx (g.adj v).length)).not.2 (Nat.lt_irrefl _)
      have hadd : ∀ (x y c d P : Nat), x + 1 ≤ y → c + x * P + P ≤ c + y * P := by
        intro x y c d P hxy
        have := Nat.mul_le_mul_right P hxy
        rw [Nat.add_mul, Nat.one_mul] at this
        omega
      rcases Nat.eq_or_lt_of_le hm with he | hlt
      · rw [← he]
        exact hadd _ _ _ 0 _ (by rw [← he] at hv0; omega)
      · have h4 : tabs bsize (bucketIdx (g.adj u).length + 1) ≤ tabs bsize (bucketIdx (g.adj v).length) := tabs_mono hlt
        have h5 := hadd (u - first g.n (fun u => (g.adj u).length) (bucketIdx (g.adj u).length)) (bsize (bucketIdx (g.adj u).length))
          (tabs bsize (bucketIdx (g.adj u).length)) 0 (2 ^ bucketIdx (g.adj u).length) (by omega)
        have h6 : tabs bsize (bucketIdx (g.adj u).length + 1) = tabs bsize (bucketIdx (g.adj u).length) +
          bsize (bucketIdx (g.adj u).length) * 2 ^ bucketIdx (g.adj u).length := rfl
        exact Nat.le_trans (by omega : _ ≤ tabs bsize (bucketIdx (g.adj v).length)) (Nat.le_add_right _ _)
    · intro u hu
      have hu : u < first g.n (fun u => (g.adj u).length) b := hu
      have hun : u < g.n := Nat.lt_of_lt_of_le hu (first_le b)
      have hb : bucketIdx (g.adj u).length < b := (h.lt_first hun b).1 hu
      have hu1 := (h.lt_first hun (bucketIdx (g.adj u).length + 1)).2 (Nat.lt_succ_self _)
      rw [h.first_succ] at hu1
      have hu0 := (h.lt_first hun (bucketIdx (g.adj u).length)).not.2 (Nat.lt_irrefl _)
      have h4 : tabs bsize (bucketIdx (g.adj u).length + 1) ≤ tabs bsize b := tabs_mono hb
      have h6 : tabs bsize (bucketIdx (g.adj u).length + 1) = tabs bsize (bucketIdx (g.adj u).length) +
          bsize (bucketIdx (g.adj u).length) * 2 ^ bucketIdx (g.adj u).length := rfl
      have h7 := Nat.mul_le_mul_right (2 ^ bucketIdx (g.adj u).length)
        (show u - first g.n (fun u => (g.adj u).length) (bucketIdx (g.adj u).length) + 1 ≤ bsize (bucketIdx (g.adj u).length) by omega)
      rw [Nat.add_mul, Nat.one_mul] at h7
      show _ ≤ if b ≤ b then tabs bsize b else _
      rw [if_pos (Nat.le_refl b)]
      omega
    · show (if b ≤ b then tabs bsize b else _) + _ ≤ _
      rw [if_pos (Nat.le_refl b)]
    · intro u hu
      have hu : u < first g.n (fun u => (g.adj u).length) b := hu
      have hun : u < g.n := Nat.lt_of_lt_of_le hu (first_le b)
      have hb : bucketIdx (g.adj u).length < b := (h.lt_first hun b).1 hu
      obtain ⟨h4, h5⟩ := h3 _ hb
      have h6 := h.deg_lt hun
      have hu0 := (h.lt_first hun (bucketIdx (g.adj u).length)).not.2 (Nat.lt_irrefl _)
      have h7 := h.first_lt h4
      have h8 := h.mono _ u (by omega : first g.n (fun u => (g.adj u).length) (bucketIdx (g.adj u).length) ≤ u) hun
      have h9 := h.deg_ge h4
      have h10 : bucketIdx (g.adj (first g.n (fun u => (g.adj u).length) (bucketIdx (g.adj u).length))).length =
          bucketIdx (g.adj u).length := Nat.le_antisymm h8 h7
      rw [h10] at h9
      rcases h9 with h9 | h9
      · omega
      · rw [h9] at h10
        have : bucketIdx 0 = 0 := by decide
        rw [← h10, this] at h6
        omega

end Verif.SparseGains
