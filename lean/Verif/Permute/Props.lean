import Verif.Permute.Model
import Verif.PrefixSum.Props

/-!
# C22: reordering the nodes by degree buckets
-/

namespace Verif.Permute
open Verif.Math Verif.PrefixSum

/-! ## Specification -/

/-- The position of node `u` among `n` nodes when they are sorted by `bk`, nodes with the same value in the
order of their numbers. -/
def rank (n : Nat) (bk : Nat → Nat) (u : Nat) : Nat :=
  (List.range n).countP (fun v => bk v < bk u) + (List.range u).countP (fun v => bk v = bk u)

/-! ## First pass -/

theorem pass1_loop (bk : Nat → Nat) (c : Nat) : ∀ (len a : Nat) (m : Cell → Nat),
    let r := (List.range' a len).foldl (count bk c) m
    (∀ i, r (.loc (c + 1) i) = m (.loc (c + 1) i) + (List.range' a len).countP (fun v => bk v = i)) ∧
    (∀ u, a ≤ u → u < a + len →
      r (.perm u) = m (.loc (c + 1) (bk u)) + (List.range' a (u - a)).countP (fun v => bk v = bk u)) ∧
    (∀ u, ¬ (a ≤ u ∧ u < a + len) → r (.perm u) = m (.perm u)) ∧
    (∀ row i, row ≠ c + 1 → r (.loc row i) = m (.loc row i))
  | 0, a, m => ⟨fun i => rfl, fun u h1 h2 => by omega, fun u _ => rfl, fun row i _ => rfl⟩
  | len + 1, a, m => by
    obtain ⟨h1, h2, h3, h4⟩ := pass1_loop bk c len (a + 1) (count bk c m a)
    have hl : ∀ i, count bk c m a (.loc (c + 1) i) = m (.loc (c + 1) i) + if bk a = i then 1 else 0 := by
      intro i
      show upd _ _ _ _ = _
      rw [upd_ne _ _ (by simp)]
      by_cases h : bk a = i
      · subst h; rw [upd_same]; simp
      · rw [upd_ne _ _ (by simp; omega)]; simp [h]
    rw [List.range'_succ, List.foldl_cons]
    refine ⟨?_, ?_, ?_, ?_⟩
    · intro i
      rw [h1, hl, List.countP_cons]
      simp only [decide_eq_true_eq]
      omega
    · intro u hu1 hu2
      by_cases hua : u = a
      · subst hua
        rw [h3 u (by omega), Nat.sub_self]
        show upd _ _ _ _ = _
        rw [upd_same]; rfl
      · rw [h2 u (by omega) (by omega), hl, show u - a = (u - (a + 1)) + 1 by omega, List.range'_succ,
          List.countP_cons]
        simp only [decide_eq_true_eq]
        omega
    · intro u hu
      rw [h3 u (by omega)]
      show upd _ _ _ _ = _
      rw [upd_ne _ _ (by intro h; injection h; omega), upd_ne _ _ (by simp)]
    · intro row i hrow
      rw [h4 row i hrow]
      show upd _ _ _ _ = _
      rw [upd_ne _ _ (by simp), upd_ne _ _ (by simp; intro h; exact absurd h hrow)]

/-- The cells of a call. -/
def mine (c : Nat × Nat × Nat) : Cell → Prop
  | .perm u => c.1 ≤ u ∧ u < c.2.1
  | .loc row _ => row = c.2.2 + 1

/-- The calls of one loop have disjoint ranges and different threads. -/
theorem calls_pairwise {n p : Nat} :
    ((List.range p).map fun cpu => (lrFrom n p cpu, lrFrom n p (cpu + 1), cpu)).Pairwise
      fun c d => c.2.2 ≠ d.2.2 ∧ ∀ u, c.1 ≤ u ∧ u < c.2.1 → ¬ (d.1 ≤ u ∧ u < d.2.1) := by
  rw [List.pairwise_map]
  have : (List.range p).Pairwise (· ≠ ·) := List.nodup_range
  refine this.imp fun {a b} hab => ⟨hab, fun u h1 h2 => hab ?_⟩
  exact lr_unique h1.1 h1.2 h2.1 h2.2

theorem pass1_all {n p : Nat} (bk : Nat → Nat) (m0 : Cell → Nat)
    (h0 : ∀ row i, m0 (.loc row i) = 0) {calls : List (Nat × Nat × Nat)}
    (hc : calls.Perm ((List.range p).map fun cpu => (lrFrom n p cpu, lrFrom n p (cpu + 1), cpu))) :
    (∀ c, c < p → ∀ i, calls.foldl (pass1 bk) m0 (.loc (c + 1) i) =
      (List.range' (lrFrom n p c) (lrFrom n p (c + 1) - lrFrom n p c)).countP (fun v => bk v = i)) ∧
    (∀ c, c < p → ∀ u, lrFrom n p c ≤ u → u < lrFrom n p (c + 1) → calls.foldl (pass1 bk) m0 (.perm u) =
      (List.range' (lrFrom n p c) (u - lrFrom n p c)).countP (fun v => bk v = bk u)) ∧
    (∀ i, calls.foldl (pass1 bk) m0 (.loc 0 i) = 0) := by
  have hpw := hc.symm.pairwise calls_pairwise (by
    intro x y h
    exact ⟨Ne.symm h.1, fun u h1 h2 => h.2 u h2 h1⟩)
  have hD : calls.Pairwise fun c d => ∀ q, mine c q → ¬ mine d q := by
    refine hpw.imp fun {c d} h q h1 h2 => ?_
    cases q with
    | perm u => exact h.2 u h1 h2
    | loc row i => exact h.1 (by have h1 : row = _ := h1; have h2 : row = _ := h2; omega)
  have hloc : ∀ (m m' : Cell → Nat) (x : Nat × Nat × Nat), x ∈ calls → (∀ q, mine x q → m q = m' q) →
      ∀ q, mine x q → pass1 bk m x q = pass1 bk m' x q := by
    intro m m' x _ hm q hq
    obtain ⟨a1, a2, _, _⟩ := pass1_loop bk x.2.2 (x.2.1 - x.1) x.1 m
    obtain ⟨b1, b2, _, _⟩ := pass1_loop bk x.2.2 (x.2.1 - x.1) x.1 m'
    cases q with
    | perm u =>
      have hq : x.1 ≤ u ∧ u < x.2.1 := hq
      unfold pass1
      rw [a2 u (by omega) (by omega), b2 u (by omega) (by omega), hm _ (show mine x (.loc _ _) from rfl)]
    | loc row i =>
      have hq : row = x.2.2 + 1 := hq
      subst hq
      unfold pass1
      rw [a1, b1, hm _ (show mine x (.loc _ _) from rfl)]
  have hout : ∀ (m : Cell → Nat) (x : Nat × Nat × Nat), x ∈ calls → ∀ q, ¬ mine x q → pass1 bk m x q = m q := by
    intro m x _ q hq
    obtain ⟨_, _, a3, a4⟩ := pass1_loop bk x.2.2 (x.2.1 - x.1) x.1 m
    cases q with
    | perm u =>
      have hq : ¬ (x.1 ≤ u ∧ u < x.2.1) := hq
      exact a3 u (by omega)
    | loc row i => exact a4 row i hq
  have key := foldl_disjoint_local hloc hout hD m0
  have hmem : ∀ c, c < p → (lrFrom n p c, lrFrom n p (c + 1), c) ∈ calls := fun c hc' =>
    hc.mem_iff.2 (List.mem_map.2 ⟨c, List.mem_range.2 hc', rfl⟩)
  refine ⟨fun c hc' i => ?_, fun c hc' u hu1 hu2 => ?_, fun i => ?_⟩
  · rw [(key (.loc (c + 1) i)).1 _ (hmem c hc') rfl]
    have := (pass1_loop bk c (lrFrom n p (c + 1) - lrFrom n p c) (lrFrom n p c) m0).1 i
    rw [h0, Nat.zero_add] at this
    exact this
  · rw [(key (.perm u)).1 _ (hmem c hc') ⟨hu1, hu2⟩]
    have := (pass1_loop bk c (lrFrom n p (c + 1) - lrFrom n p c) (lrFrom n p c) m0).2.1 u hu1 (by omega)
    rw [h0, Nat.zero_add] at this
    exact this
  · rw [(key (.loc 0 i)).2 fun x _ => by intro h; have h : 0 = _ := h; omega, h0]

/-! ## Prefix sums -/

/-- Sum of the first entries. -/
def psum (f : Nat → Nat) : Nat → Nat
  | 0 => 0
  | n + 1 => psum f n + f n

theorem psum_congr {f g : Nat → Nat} : ∀ {n : Nat}, (∀ i, i < n → f i = g i) → psum f n = psum g n
  | 0, _ => rfl
  | n + 1, h => by rw [psum, psum, psum_congr fun i hi => h i (by omega), h n (by omega)]

theorem prefixSum_loop (a : Nat → Nat) : ∀ k,
    (∀ i, i ≤ k → ((List.range' 1 k).foldl (fun a i => upd a i (a (i - 1) + a i)) a) i = psum a (i + 1)) ∧
    (∀ i, k < i → ((List.range' 1 k).foldl (fun a i => upd a i (a (i - 1) + a i)) a) i = a i)
  | 0 => ⟨fun i hi => by obtain rfl : i = 0 := by omega
                         simp [psum], fun i _ => rfl⟩
  | k + 1 => by
    obtain ⟨h1, h2⟩ := prefixSum_loop a k
    rw [List.range'_concat, List.foldl_append, List.foldl_cons, List.foldl_nil]
    simp only [Nat.one_mul]
    refine ⟨fun i hi => ?_, fun i hi => ?_⟩
    · by_cases hik : i = 1 + k
      · subst hik
        rw [upd_same, h1 _ (by omega), h2 _ (by omega), show 1 + k - 1 + 1 = 1 + k by omega]; rfl
      · rw [upd_ne _ _ hik, h1 i (by omega)]
    · rw [upd_ne _ _ (by omega), h2 i (by omega)]

theorem prefixSum_eq {size : Nat} (a : Nat → Nat) {i : Nat} (hi : i < size) :
    prefixSum size a i = psum a (i + 1) := (prefixSum_loop a (size - 1)).1 i (by omega)

theorem localPrefix_loop (l : Nat → Nat) : ∀ k,
    (∀ i, i ≤ k → ((List.range k).foldl (fun l id => upd l (id + 1) (l (id + 1) + l id)) l) i = psum l (i + 1)) ∧
    (∀ i, k < i → ((List.range k).foldl (fun l id => upd l (id + 1) (l (id + 1) + l id)) l) i = l i)
  | 0 => ⟨fun i hi => by obtain rfl : i = 0 := by omega
                         simp [psum], fun i _ => rfl⟩
  | k + 1 => by
    obtain ⟨h1, h2⟩ := localPrefix_loop l k
    rw [List.range_succ, List.foldl_append, List.foldl_cons, List.foldl_nil]
    refine ⟨fun i hi => ?_, fun i hi => ?_⟩
    · by_cases hik : i = k + 1
      · subst hik
        rw [upd_same, h1 _ (Nat.le_refl _), h2 _ (by omega)]
        show _ = psum l (k + 1) + l (k + 1)
        omega
      · rw [upd_ne _ _ hik, h1 i (by omega)]
    · rw [upd_ne _ _ (by omega), h2 i (by omega)]

theorem addRow_loop (f : Nat → Nat) : ∀ (nb : Nat) (g : Nat → Nat),
    (∀ i, i < nb → ((List.range nb).foldl (fun g i => upd g (i + 1) (g (i + 1) + f i)) g) (i + 1) = g (i + 1) + f i) ∧
    (∀ i, (i = 0 ∨ nb < i) → ((List.range nb).foldl (fun g i => upd g (i + 1) (g (i + 1) + f i)) g) i = g i)
  | 0, g => ⟨fun i hi => by omega, fun i _ => rfl⟩
  | nb + 1, g => by
    obtain ⟨h1, h2⟩ := addRow_loop f nb g
    rw [List.range_succ, List.foldl_append, List.foldl_cons, List.foldl_nil]
    refine ⟨fun i hi => ?_, fun i hi => ?_⟩
    · by_cases hik : i = nb
      · subst hik; rw [upd_same, h2 _ (by omega)]
      · rw [upd_ne _ _ (by omega), h1 i (by omega)]
    · rw [upd_ne _ _ (by omega), h2 i (by omega)]

theorem globalCounts_eq (nb : Nat) (loc : Nat → Nat → Nat) : ∀ cpus,
    globalCounts nb cpus loc 0 = 0 ∧
    ∀ i, i < nb → globalCounts nb cpus loc (i + 1) = psum (fun c => loc (c + 1) i) cpus
  | 0 => ⟨rfl, fun i _ => rfl⟩
  | cpus + 1 => by
    obtain ⟨h1, h2⟩ := globalCounts_eq nb loc cpus
    unfold globalCounts at h1 h2 ⊢
    rw [List.range'_concat, List.foldl_append, List.foldl_cons, List.foldl_nil]
    obtain ⟨a1, a2⟩ := addRow_loop (loc (1 + 1 * cpus)) nb
      ((List.range' 1 cpus).foldl (fun g id => (List.range nb).foldl (fun g i => upd g (i + 1) (g (i + 1) + loc id i)) g)
        fun _ => 0)
    refine ⟨(a2 0 (Or.inl rfl)).trans h1, fun i hi => ?_⟩
    rw [a1 i hi, h2 i hi, psum]
    simp only [Nat.one_mul, Nat.add_comm]

/-! ## Counting -/

theorem countP_lr {n p : Nat} (P : Nat → Bool) : ∀ c,
    psum (fun c => (List.range' (lrFrom n p c) (lrFrom n p (c + 1) - lrFrom n p c)).countP P) c =
      (List.range (lrFrom n p c)).countP P
  | 0 => by simp [psum, lrFrom_zero]
  | c + 1 => by
    rw [psum, countP_lr P c]
    have h : lrFrom n p c ≤ lrFrom n p (c + 1) := lrFrom_mono (Nat.le_succ c)
    have := List.range'_append (s := 0) (m := lrFrom n p c) (n := lrFrom n p (c + 1) - lrFrom n p c) (step := 1)
    simp only [Nat.one_mul, Nat.zero_add] at this
    rw [List.range_eq_range', List.range_eq_range', ← List.countP_append, this]
    congr 2
    omega

theorem countP_below (bk : Nat → Nat) (l : List Nat) : ∀ b,
    psum (fun i => l.countP fun v => bk v = i) b = l.countP fun v => bk v < b
  | 0 => by simp [psum]
  | b + 1 => by
    rw [psum, countP_below bk l b]
    induction l with
    | nil => rfl
    | cons a l ih =>
      simp only [List.countP_cons, decide_eq_true_eq] at ih ⊢
      split <;> split <;> split <;> omega

theorem pass2_loop (bk glob : Nat → Nat) (f : Nat → Nat) : ∀ (len a : Nat) (p : Nat → Nat) (u : Nat),
    ((List.range' a len).foldl (fun p u => upd p u (p u + (glob (bk u) + f (bk u)))) p) u =
      if a ≤ u ∧ u < a + len then p u + (glob (bk u) + f (bk u)) else p u
  | 0, a, p, u => by rw [if_neg (by omega)]; rfl
  | len + 1, a, p, u => by
    rw [List.range'_succ, List.foldl_cons, pass2_loop bk glob f len]
    by_cases h : u = a
    · subst h; rw [if_neg (by omega), if_pos (by omega), upd_same]
    · rw [upd_ne _ _ h]
      by_cases h2 : a + 1 ≤ u ∧ u < a + 1 + len
      · rw [if_pos h2, if_pos (by omega)]
      · rw [if_neg h2, if_neg (by omega)]

/-- **C22, what the parallel bucket sort computes.**  For every number of threads and every order of the
parallel calls, node `u` gets its position in the stable order by buckets. -/
theorem C22_permutation_is_stable_sort (maxConc n nb : Nat) (bk garbage : Nat → Nat) (hc : 0 < maxConc)
    (hbk : ∀ u, u < n → bk u < nb) (calls1 calls2 : List (Nat × Nat × Nat)) (nodes : List Nat)
    (h1 : calls1.Perm (deterministicForCalls maxConc 0 n)) (h2 : calls2.Perm (deterministicForCalls maxConc 0 n)) :
    ∀ u, u < n → (byBuckets maxConc n nb bk garbage calls1 calls2 nodes).oldToNew u = rank n bk u := by
  intro u hu
  have hn : 0 < n := by omega
  obtain ⟨p, hp⟩ : ∃ p, p = min maxConc n := ⟨_, rfl⟩
  have hp0 : 0 < p := by omega
  rw [calls_eq hn hc hp] at h1 h2
  obtain ⟨c, hcp, hc1, hc2⟩ := lr_exists hp0 hu
  set m0 : Cell → Nat := fun c => match c with
    | .perm u => garbage u
    | .loc _ _ => 0 with hm0
  obtain ⟨a1, a2, a3⟩ := pass1_all bk m0 (fun _ _ => rfl) h1
  set m := calls1.foldl (pass1 bk) m0 with hm
  -- the global prefix
  have hglob : prefixSum (nb + 1) (globalCounts nb p fun row i => m (.loc row i)) (bk u) =
      (List.range n).countP fun v => bk v < bk u := by
    obtain ⟨g0, g1⟩ := globalCounts_eq nb (fun row i => m (.loc row i)) p
    rw [prefixSum_eq _ (by have := hbk u hu; omega), ← countP_below bk (List.range n) (bk u)]
    have hshift : ∀ b, b ≤ nb → psum (globalCounts nb p fun row i => m (.loc row i)) (b + 1) =
        psum (fun i => (List.range n).countP fun v => bk v = i) b := by
      intro b
      induction b with
      | zero => intro _; simp [psum, g0]
      | succ b ih =>
        intro hb
        rw [psum, ih (by omega), g1 b (by omega), psum, psum_congr fun c hc => a1 c hc b,
          countP_lr, lrFrom_last hp0]
    exact hshift _ (by have := hbk u hu; omega)
  have hlocal : localPrefix p (fun row i => m (.loc row i)) (bk u) c =
      (List.range (lrFrom n p c)).countP fun v => bk v = bk u := by
    unfold localPrefix
    rw [(localPrefix_loop _ (p - 1)).1 c (by omega), ← countP_lr]
    have hshift : ∀ b, b ≤ c → psum (fun row => m (.loc row (bk u))) (b + 1) =
        psum (fun c => (List.range' (lrFrom n p c) (lrFrom n p (c + 1) - lrFrom n p c)).countP
          fun v => decide (bk v = bk u)) b := by
      intro b
      induction b with
      | zero => intro _; simp [psum, a3]
      | succ b ih => intro hb; rw [psum, ih (by omega), a1 b (by omega), psum]
    exact hshift c (Nat.le_refl _)
  -- the second pass
  have hpw := h2.symm.pairwise calls_pairwise (by
    intro x y h
    exact ⟨Ne.symm h.1, fun u h1 h2 => h.2 u h2 h1⟩)
  have key := (foldl_disjoint (op := pass2 bk (prefixSum (nb + 1) (globalCounts nb p fun row i => m (.loc row i)))
      (fun row i => localPrefix p (fun row i => m (.loc row i)) i row)) (l := calls2)
    (W := fun c u => c.1 ≤ u ∧ u < c.2.1)
    (g := fun c u x => x + (prefixSum (nb + 1) (globalCounts nb p fun row i => m (.loc row i)) (bk u) +
      localPrefix p (fun row i => m (.loc row i)) (bk u) c.2.2)) ?_ ?_ (fun u => m (.perm u)) u).1
      (lrFrom n p c, lrFrom n p (c + 1), c)
      (h2.mem_iff.2 (List.mem_map.2 ⟨c, List.mem_range.2 hcp, rfl⟩)) ⟨hc1, hc2⟩
  · unfold byBuckets
    rw [← hp]
    refine key.trans ?_
    show m (.perm u) + (_ + localPrefix p _ (bk u) c) = _
    rw [hglob, hlocal, a2 c hcp u hc1 hc2]
    unfold rank
    have hsplit : (List.range u).countP (fun v => decide (bk v = bk u)) =
        (List.range (lrFrom n p c)).countP (fun v => decide (bk v = bk u)) +
        (List.range' (lrFrom n p c) (u - lrFrom n p c)).countP (fun v => decide (bk v = bk u)) := by
      have := List.range'_append (s := 0) (m := lrFrom n p c) (n := u - lrFrom n p c) (step := 1)
      simp only [Nat.one_mul, Nat.zero_add] at this
      rw [List.range_eq_range', List.range_eq_range', ← List.countP_append, this]
      congr 2
      omega
    omega
  · intro mm x _ q
    unfold pass2
    rw [pass2_loop bk _ (fun i => localPrefix p (fun row i => m (.loc row i)) i x.2.2)]
    exact ⟨fun h => if_pos (by omega), fun h => if_neg (by omega)⟩
  · exact hpw.imp fun {c d} h => h.2

/-! ## The rank is a bijection -/

theorem countP_mono_range {P Q : Nat → Bool} {n : Nat} (h : ∀ v, v < n → P v = true → Q v = true) :
    (List.range n).countP P ≤ (List.range n).countP Q := by
  induction n with
  | zero => exact Nat.le_refl _
  | succ n ih =>
    have ih := ih fun v hv => h v (by omega)
    rw [List.range_succ, List.countP_append, List.countP_append, List.countP_singleton, List.countP_singleton]
    have := h n (by omega)
    by_cases hP : P n
    · rw [if_pos hP, if_pos (this hP)]; omega
    · rw [if_neg hP]; omega

/-- Nodes of a list that satisfy one of two exclusive properties. -/
theorem countP_add_le {P Q R : Nat → Bool} {n : Nat} (h : ∀ v, v < n → P v = true → R v = true)
    (h' : ∀ v, v < n → Q v = true → R v = true) (hx : ∀ v, v < n → P v = true → Q v = true → False) :
    (List.range n).countP P + (List.range n).countP Q ≤ (List.range n).countP R := by
  induction n with
  | zero => exact Nat.le_refl _
  | succ n ih =>
    have ih := ih (fun v hv => h v (by omega)) (fun v hv => h' v (by omega)) fun v hv => hx v (by omega)
    simp only [List.range_succ, List.countP_append, List.countP_singleton]
    have h1 := h n (by omega)
    have h2 := h' n (by omega)
    have h3 := hx n (by omega)
    by_cases hP : P n <;> by_cases hQ : Q n <;> simp_all <;> omega

theorem countP_range_lt {P : Nat → Bool} {u v : Nat} (huv : u < v) (hP : P u = true) :
    (List.range u).countP P < (List.range v).countP P := by
  obtain ⟨k, rfl⟩ : ∃ k, v = u + 1 + k := ⟨v - (u + 1), by omega⟩
  have := List.range'_append (s := 0) (m := u + 1) (n := k) (step := 1)
  simp only [Nat.one_mul, Nat.zero_add] at this
  rw [List.range_eq_range' (n := u + 1 + k), ← this, List.countP_append, ← List.range_eq_range', List.range_succ,
    List.countP_append, List.countP_singleton, if_pos hP]
  omega

theorem countP_range_le {P : Nat → Bool} {u v : Nat} (huv : u ≤ v) :
    (List.range u).countP P ≤ (List.range v).countP P := by
  obtain ⟨k, rfl⟩ : ∃ k, v = u + k := ⟨v - u, by omega⟩
  have := List.range'_append (s := 0) (m := u) (n := k) (step := 1)
  simp only [Nat.one_mul, Nat.zero_add] at this
  rw [List.range_eq_range' (n := u + k), ← this, List.countP_append, ← List.range_eq_range']
  omega

theorem rank_lt_rank {n : Nat} {bk : Nat → Nat} {u v : Nat} (hu : u < n)
    (h : bk u < bk v ∨ (bk u = bk v ∧ u < v)) : rank n bk u < rank n bk v := by
  unfold rank
  rcases h with h | ⟨h, huv⟩
  · have h1 : (List.range n).countP (fun x => decide (bk x < bk u)) +
        (List.range n).countP (fun x => decide (bk x = bk u)) ≤
        (List.range n).countP (fun x => decide (bk x < bk v)) := by
      apply countP_add_le
      · intro x _ hx; have := of_decide_eq_true hx; exact decide_eq_true (by omega)
      · intro x _ hx; have := of_decide_eq_true hx; exact decide_eq_true (by omega)
      · intro x _ hx hy; have := of_decide_eq_true hx; have := of_decide_eq_true hy; omega
    have h2 : (List.range u).countP (fun x => decide (bk x = bk u)) <
        (List.range n).countP (fun x => decide (bk x = bk u)) := countP_range_lt hu (decide_eq_true rfl)
    omega
  · have h2 : (List.range u).countP (fun x => decide (bk x = bk v)) <
        (List.range v).countP (fun x => decide (bk x = bk v)) := countP_range_lt huv (decide_eq_true h)
    rw [h]
    omega

theorem rank_lt {n : Nat} (bk : Nat → Nat) {u : Nat} (hu : u < n) : rank n bk u < n := by
  have h1 : (List.range n).countP (fun x => decide (bk x < bk u)) +
      (List.range n).countP (fun x => decide (bk x = bk u)) ≤ (List.range n).countP (fun _ => true) := by
    apply countP_add_le (fun _ _ _ => rfl) (fun _ _ _ => rfl)
    intro x _ hx hy; have := of_decide_eq_true hx; have := of_decide_eq_true hy; omega
  have h2 : (List.range u).countP (fun x => decide (bk x = bk u)) <
      (List.range n).countP (fun x => decide (bk x = bk u)) := countP_range_lt hu (decide_eq_true rfl)
  have h3 : (List.range n).countP (fun _ => true) = n := by simp
  unfold rank
  omega

theorem rank_inj {n : Nat} {bk : Nat → Nat} {u v : Nat} (hu : u < n) (hv : v < n)
    (h : rank n bk u = rank n bk v) : u = v := by
  have h1 := rank_lt_rank (bk := bk) (v := v) hu
  have h2 := rank_lt_rank (bk := bk) (v := u) hv
  by_cases hb : bk u = bk v
  · by_cases huv : u < v
    · have := h1 (Or.inr ⟨hb, huv⟩); omega
    · by_cases hvu : v < u
      · have := h2 (Or.inr ⟨hb.symm, hvu⟩); omega
      · omega
  · by_cases hlt : bk u < bk v
    · have := h1 (Or.inl hlt); omega
    · have := h2 (Or.inl (by omega)); omega

/-- An injective map of `0..n-1` into itself is surjective. -/
theorem surj_of_inj {n : Nat} {f : Nat → Nat} (hf : ∀ u, u < n → f u < n)
    (hi : ∀ u v, u < n → v < n → f u = f v → u = v) : ∀ y, y < n → ∃ u, u < n ∧ f u = y := by
  intro y hy
  by_contra hno
  have hsub : (List.range n).map f ⊆ (List.range n).erase y := by
    intro z hz
    obtain ⟨u, hu, rfl⟩ := List.mem_map.1 hz
    have hu := List.mem_range.1 hu
    have : f u ≠ y := fun e => hno ⟨u, hu, e⟩
    exact (List.mem_erase_of_ne this).2 (List.mem_range.2 (hf u hu))
  have hnd : ((List.range n).map f).Nodup := nodup_map_on List.nodup_range fun a ha b hb =>
    hi a b (List.mem_range.1 ha) (List.mem_range.1 hb)
  have := nodup_length_le hnd hsub
  rw [List.length_map, List.length_erase_of_mem (List.mem_range.2 hy), List.length_range] at this
  omega

theorem inverse_loop {f : Nat → Nat} : ∀ (l : List Nat) (g : Nat → Nat), (∀ u ∈ l, ∀ v ∈ l, f u = f v → u = v) →
    ∀ u ∈ l, l.foldl (fun inv u => upd inv (f u) u) g (f u) = u := by
  intro l
  induction l with
  | nil => intro _ _ u hu; exact absurd hu List.not_mem_nil
  | cons a l ih =>
    intro g hinj u hu
    rw [List.foldl_cons]
    by_cases hul : u ∈ l
    · exact ih _ (fun x hx y hy => hinj x (List.mem_cons_of_mem _ hx) y (List.mem_cons_of_mem _ hy)) u hul
    · have hua : u = a := (List.mem_cons.1 hu).resolve_right hul
      subst hua
      have hkeep : ∀ (l' : List Nat) (g : Nat → Nat), (∀ x ∈ l', f x ≠ f u) →
          l'.foldl (fun inv u => upd inv (f u) u) g (f u) = g (f u) := by
        intro l'
        induction l' with
        | nil => intro _ _; rfl
        | cons b l' ih' =>
          intro g hne
          rw [List.foldl_cons, ih' _ fun x hx => hne x (List.mem_cons_of_mem _ hx),
            upd_ne _ _ (Ne.symm (hne b List.mem_cons_self))]
      rw [hkeep l _ fun x hx he => hul ?_, upd_same]
      have := hinj x (List.mem_cons_of_mem _ hx) u List.mem_cons_self he
      exact this ▸ hx

/-- **C22, the permutation.**  For every number of threads and every schedule the two arrays are inverse
bijections of the nodes, nodes are ordered by their bucket, and nodes of the same bucket keep their order. -/
theorem C22_bijection_sorted_stable (maxConc n nb : Nat) (bk garbage : Nat → Nat) (hc : 0 < maxConc)
    (hbk : ∀ u, u < n → bk u < nb) (calls1 calls2 : List (Nat × Nat × Nat)) (nodes : List Nat)
    (h1 : calls1.Perm (deterministicForCalls maxConc 0 n)) (h2 : calls2.Perm (deterministicForCalls maxConc 0 n))
    (h3 : nodes.Perm (List.range n)) :
    let p := byBuckets maxConc n nb bk garbage calls1 calls2 nodes
    (∀ u, u < n → p.oldToNew u < n ∧ p.newToOld (p.oldToNew u) = u) ∧
    (∀ x, x < n → p.newToOld x < n ∧ p.oldToNew (p.newToOld x) = x) ∧
    (∀ u v, u < n → v < n →
      (p.oldToNew u < p.oldToNew v ↔ bk u < bk v ∨ (bk u = bk v ∧ u < v))) := by
  intro p
  have hr : ∀ u, u < n → p.oldToNew u = rank n bk u :=
    C22_permutation_is_stable_sort maxConc n nb bk garbage hc hbk calls1 calls2 nodes h1 h2
  have hinj : ∀ u v, u < n → v < n → p.oldToNew u = p.oldToNew v → u = v := by
    intro u v hu hv h
    rw [hr u hu, hr v hv] at h
    exact rank_inj hu hv h
  have hlt : ∀ u, u < n → p.oldToNew u < n := fun u hu => by rw [hr u hu]; exact rank_lt bk hu
  have hmem : ∀ u, u ∈ nodes ↔ u < n := fun u => h3.mem_iff.trans List.mem_range
  have hleft : ∀ u, u < n → p.newToOld (p.oldToNew u) = u := by
    intro u hu
    exact inverse_loop nodes garbage (fun x hx y hy => hinj x y ((hmem x).1 hx) ((hmem y).1 hy)) u ((hmem u).2 hu)
  refine ⟨fun u hu => ⟨hlt u hu, hleft u hu⟩, ?_, ?_⟩
  · intro x hx
    obtain ⟨u, hu, rfl⟩ := surj_of_inj hlt hinj x hx
    rw [hleft u hu]
    exact ⟨hu, rfl⟩
  · intro u v hu hv
    rw [hr u hu, hr v hv]
    constructor
    · intro h
      by_contra hno
      have : bk v < bk u ∨ (bk v = bk u ∧ v < u) ∨ u = v := by omega
      rcases this with h' | h' | h'
      · have := rank_lt_rank hv (Or.inl h'); omega
      · have := rank_lt_rank hv (Or.inr h'); omega
      · subst h'; omega
    · exact rank_lt_rank hu

/-- **C22, independence of the number of threads.** -/
theorem C22_thread_independent (c c' n nb : Nat) (bk garbage garbage' : Nat → Nat) (hc : 0 < c) (hc' : 0 < c')
    (hbk : ∀ u, u < n → bk u < nb) (calls1 calls2 calls1' calls2' : List (Nat × Nat × Nat)) (nodes nodes' : List Nat)
    (h1 : calls1.Perm (deterministicForCalls c 0 n)) (h2 : calls2.Perm (deterministicForCalls c 0 n))
    (h1' : calls1'.Perm (deterministicForCalls c' 0 n)) (h2' : calls2'.Perm (deterministicForCalls c' 0 n))
    (u : Nat) (hu : u < n) :
    (byBuckets c n nb bk garbage calls1 calls2 nodes).oldToNew u =
      (byBuckets c' n nb bk garbage' calls1' calls2' nodes').oldToNew u := by
  rw [C22_permutation_is_stable_sort c n nb bk garbage hc hbk calls1 calls2 nodes h1 h2 u hu,
    C22_permutation_is_stable_sort c' n nb bk garbage' hc' hbk calls1' calls2' nodes' h1' h2' u hu]

/-! ## Degree buckets -/

theorem bucketOf_eq {d : Nat} (hd : d < 2 ^ 32) :
    bucketOf true d = some (if d = 0 then 32 else Nat.log2 d + 1) := by
  unfold bucketOf
  by_cases h : d = 0
  · rw [if_pos h, if_pos h]; rfl
  · rw [if_neg h, if_neg h, degreeBucket_eq hd, if_neg h]

theorem log2_lt {d k : Nat} (h0 : d ≠ 0) (h : d < 2 ^ k) : Nat.log2 d < k := (Nat.log2_lt h0).2 h

/-- **C22, order by degree.**  If all degrees are below 2^31, the reordered graph has the nodes of smaller
degree bucket first and all isolated nodes last. -/
theorem C22_degree_order_partial (maxConc n : Nat) (deg bk garbage : Nat → Nat) (hc : 0 < maxConc)
    (hdeg : ∀ u, u < n → deg u < 2 ^ 31) (hbk : ∀ u, u < n → bucketOf true (deg u) = some (bk u))
    (calls1 calls2 : List (Nat × Nat × Nat)) (nodes : List Nat)
    (h1 : calls1.Perm (deterministicForCalls maxConc 0 n)) (h2 : calls2.Perm (deterministicForCalls maxConc 0 n))
    (h3 : nodes.Perm (List.range n)) :
    let p := byBuckets maxConc n numDegreeBuckets bk garbage calls1 calls2 nodes
    (∀ u v, u < n → v < n → deg u ≠ 0 → deg v = 0 → p.oldToNew u < p.oldToNew v) ∧
    (∀ u v, u < n → v < n → deg u ≠ 0 → Nat.log2 (deg u) < Nat.log2 (deg v) → p.oldToNew u < p.oldToNew v) := by
  intro p
  have hb : ∀ u, u < n → bk u = if deg u = 0 then 32 else Nat.log2 (deg u) + 1 := by
    intro u hu
    have h := hbk u hu
    rw [bucketOf_eq (Nat.lt_trans (hdeg u hu) (by decide))] at h
    exact (Option.some.inj h).symm
  have hlog : ∀ u, u < n → deg u ≠ 0 → Nat.log2 (deg u) < 31 := fun u hu h0 => log2_lt h0 (hdeg u hu)
  have hlt : ∀ u, u < n → bk u < numDegreeBuckets := by
    intro u hu
    rw [hb u hu]
    show _ < 33
    split
    · omega
    · rename_i h0; have := hlog u hu h0; omega
  obtain ⟨_, _, hord⟩ := C22_bijection_sorted_stable maxConc n numDegreeBuckets bk garbage hc hlt calls1 calls2 nodes h1 h2 h3
  constructor
  · intro u v hu hv hu0 hv0
    refine (hord u v hu hv).2 (Or.inl ?_)
    rw [hb u hu, hb v hv, if_neg hu0, if_pos hv0]
    have := hlog u hu hu0
    omega
  · intro u v hu hv hu0 h
    refine (hord u v hu hv).2 (Or.inl ?_)
    have hv0 : deg v ≠ 0 := by
      intro h0
      rw [h0, show Nat.log2 0 = 0 by decide] at h
      omega
    rw [hb u hu, hb v hv, if_neg hu0, if_neg hv0]
    omega

/-- **C22, negative.**  A node of degree at least 2^31 (possible with 32-bit node IDs) gets the bucket of the
isolated nodes, so it may be placed after an isolated node. -/
theorem C22_isolated_not_last_for_huge_degrees (bk : Nat → Nat) (h0 : bucketOf true 0 = some (bk 0))
    (h1 : bucketOf true (2 ^ 31) = some (bk 1)) : rank 2 bk 0 < rank 2 bk 1 := by
  rw [bucketOf_eq (by decide)] at h0 h1
  have h31 : Nat.log2 (2 ^ 31) = 31 := Nat.log2_two_pow
  rw [h31] at h1
  refine rank_lt_rank (by decide) (Or.inr ⟨?_, by decide⟩)
  have h0 : 32 = bk 0 := Option.some.inj h0
  have h1 : 32 = bk 1 := Option.some.inj h1
  omega

/-! ## The permuted graph -/

theorem moveEdges_loop (u : Nat) (h : Nat → Nat × Int) : ∀ (len a : Nat) (s : (Nat → Nat) × (Nat → Nat × Int)),
    len ≤ s.1 u →
    let r := (List.range' a len).foldl (fun (s : (Nat → Nat) × (Nat → Nat × Int)) e =>
      (upd s.1 u (s.1 u - 1), upd s.2 (s.1 u - 1) (h e))) s
    r.1 u = s.1 u - len ∧ (∀ v, v ≠ u → r.1 v = s.1 v) ∧
    (∀ j, j < len → r.2 (s.1 u - 1 - j) = h (a + j)) ∧
    (∀ q, (q < s.1 u - len ∨ s.1 u ≤ q) → r.2 q = s.2 q)
  | 0, a, s, _ => ⟨rfl, fun _ _ => rfl, fun j hj => by omega, fun _ _ => rfl⟩
  | len + 1, a, (s1, s2), hl => by
    dsimp only at hl
    have hx : upd s1 u (s1 u - 1) u = s1 u - 1 := upd_same _ _ _
    obtain ⟨a1, a2, a3, a4⟩ := moveEdges_loop u h len (a + 1) (upd s1 u (s1 u - 1), upd s2 (s1 u - 1) (h a))
      (by dsimp only; rw [hx]; omega)
    rw [List.range'_succ, List.foldl_cons]
    dsimp only at a1 a2 a3 a4 ⊢
    rw [hx] at a1 a3 a4
    refine ⟨by rw [a1]; omega, fun v hv => by rw [a2 v hv, upd_ne _ _ hv], ?_, ?_⟩
    · intro j hj
      by_cases h0 : j = 0
      · subst h0
        rw [Nat.sub_zero, a4 _ (Or.inr (Nat.le_refl _)), upd_same]; rfl
      · have := a3 (j - 1) (by omega)
        rw [show s1 u - 1 - j = s1 u - 1 - 1 - (j - 1) by omega, this]
        congr 1; omega
    · intro q hq
      rw [a4 q (by omega), upd_ne _ _ (by omega)]

theorem psum_le {f : Nat → Nat} {a b : Nat} (h : a ≤ b) : psum f a ≤ psum f b := by
  induction b with
  | zero => obtain rfl : a = 0 := by omega
            exact Nat.le_refl _
  | succ b ih =>
    by_cases hab : a = b + 1
    · rw [hab]
    · have := ih (by omega); rw [psum]; omega

theorem psum_disjoint {f : Nat → Nat} {a b q : Nat} (ha : psum f a ≤ q ∧ q < psum f (a + 1))
    (hb : psum f b ≤ q ∧ q < psum f (b + 1)) : a = b := by
  by_contra hne
  rcases Nat.lt_or_gt_of_ne hne with h | h
  · have := psum_le (f := f) (show a + 1 ≤ b from h); omega
  · have := psum_le (f := f) (show b + 1 ≤ a from h); omega

theorem move_all (g : Csr) (f newToOld : Nat → Nat) (D : Nat → Nat)
    (hD : ∀ u, D u = g.nodes (newToOld u + 1) - g.nodes (newToOld u)) :
    ∀ (l : List Nat) (s : (Nat → Nat) × (Nat → Nat × Int)), l.Nodup →
    (∀ u ∈ l, s.1 u = psum D (u + 1)) →
    let r := l.foldl (moveEdges g f newToOld) s
    (∀ u ∈ l, r.1 u = psum D u ∧ ∀ j, j < D u → r.2 (psum D (u + 1) - 1 - j) =
      (f (g.edges (g.nodes (newToOld u) + j)).1, (g.edges (g.nodes (newToOld u) + j)).2)) ∧
    (∀ u, u ∉ l → r.1 u = s.1 u) ∧
    (∀ q, (∀ u ∈ l, ¬ (psum D u ≤ q ∧ q < psum D (u + 1))) → r.2 q = s.2 q)
  | [], s, _, _ => ⟨fun u hu => absurd hu List.not_mem_nil, fun _ _ => rfl, fun _ _ => rfl⟩
  | x :: l, s, hnd, hs => by
    obtain ⟨hx, hnd⟩ := List.nodup_cons.1 hnd
    have hsx := hs x List.mem_cons_self
    have hpx : psum D (x + 1) = psum D x + D x := rfl
    obtain ⟨a1, a2, a3, a4⟩ := moveEdges_loop x (fun e => (f (g.edges e).1, (g.edges e).2)) (D x) (g.nodes (newToOld x)) s
      (by omega)
    have hmv : moveEdges g f newToOld s x = (List.range' (g.nodes (newToOld x)) (D x)).foldl
        (fun (s : (Nat → Nat) × (Nat → Nat × Int)) e =>
          (upd s.1 x (s.1 x - 1), upd s.2 (s.1 x - 1) (f (g.edges e).1, (g.edges e).2))) s := by
      rw [hD]; rfl
    rw [← hmv] at a1 a2 a3 a4
    obtain ⟨b1, b2, b3⟩ := move_all g f newToOld D hD l (moveEdges g f newToOld s x) hnd fun u hu => by
      rw [a2 u (fun e => hx (e ▸ hu)), hs u (List.mem_cons_of_mem _ hu)]
    rw [List.foldl_cons]
    refine ⟨?_, ?_, ?_⟩
    · intro u hu
      by_cases hux : u = x
      · subst hux
        refine ⟨by rw [b2 u hx, a1, hsx]; omega, fun j hj => ?_⟩
        rw [b3 _ fun v hv hin => ?_, ← hsx, a3 j hj]
        have := psum_disjoint (f := D) (a := u) (q := psum D (u + 1) - 1 - j) (by omega) hin
        exact hx (this ▸ hv)
      · exact b1 u ((List.mem_cons.1 hu).resolve_left hux)
    · intro u hu
      rw [b2 u fun h => hu (List.mem_cons_of_mem _ h), a2 u fun h => hu (h ▸ List.mem_cons_self)]
    · intro q hq
      rw [b3 q fun u hu => hq u (List.mem_cons_of_mem _ hu), a4 q]
      have := hq x List.mem_cons_self
      omega

theorem fill_loop (F : Nat → Nat) (G : Nat → Int) : ∀ (l : List Nat) (s : (Nat → Nat) × (Nat → Int)),
    let r := l.foldl (fun (s : (Nat → Nat) × (Nat → Int)) u => (upd s.1 u (F u), upd s.2 u (G u))) s
    ∀ u, (u ∈ l → r.1 u = F u ∧ r.2 u = G u) ∧ (u ∉ l → r.1 u = s.1 u ∧ r.2 u = s.2 u)
  | [], s, u => ⟨fun h => absurd h List.not_mem_nil, fun _ => ⟨rfl, rfl⟩⟩
  | x :: l, s, u => by
    obtain ⟨h1, h2⟩ := fill_loop F G l (upd s.1 x (F x), upd s.2 x (G x)) u
    rw [List.foldl_cons]
    refine ⟨fun hu => ?_, fun hu => ?_⟩
    · by_cases hul : u ∈ l
      · exact h1 hul
      · have hux : u = x := (List.mem_cons.1 hu).resolve_right hul
        subst hux
        have := h2 hul
        dsimp only at this ⊢
        rw [upd_same, upd_same] at this
        exact this
    · have hux : u ≠ x := fun e => hu (e ▸ List.mem_cons_self)
      have := h2 fun h => hu (List.mem_cons_of_mem _ h)
      dsimp only at this ⊢
      rw [upd_ne _ _ hux, upd_ne _ _ hux] at this
      exact this

/-- **C22, the permuted graph.**  For inverse bijections and every order of the parallel loops: the new graph
has the same number of nodes, node weights move along, and the neighbourhood of node `new(u)` consists of the
edges of `u`, with their targets renamed, same weights and same multiplicities (their order is reversed).
Targets of ghost nodes (only in distributed graphs) keep their IDs. -/
theorem C22_permuted_graph (ghosts : Bool) (g : Csr) (p : NodePermutations) (order1 order2 : List Nat)
    (garbage : Nat → Nat) (garbageE : Nat → Nat × Int) (garbageW : Nat → Int)
    (hp1 : ∀ u, u < g.n → p.oldToNew u < g.n ∧ p.newToOld (p.oldToNew u) = u)
    (h1 : order1.Perm (List.range g.n)) (h2 : order2.Perm (List.range g.n)) :
    let g' := buildPermuted ghosts g p order1 order2 garbage garbageE garbageW
    g'.graph.n = g.graph.n ∧
    (∀ u, u < g.n → g'.graph.w (p.oldToNew u) = g.graph.w u) ∧
    (∀ u, u < g.n → g'.graph.adj (p.oldToNew u) = ((g.graph.adj u).map fun e =>
      (if ghosts = false ∨ e.1 < g.n then p.oldToNew e.1 else e.1, e.2)).reverse) ∧
    (g'.nodes 0 = 0 ∧ ∀ u, u < g.n → g'.nodes u ≤ g'.nodes (u + 1)) := by
  intro g'
  obtain ⟨D, hD⟩ : ∃ D : Nat → Nat, D = fun u => g.nodes (p.newToOld u + 1) - g.nodes (p.newToOld u) := ⟨_, rfl⟩
  have hmem1 : ∀ u, u ∈ order1 ↔ u < g.n := fun u => h1.mem_iff.trans List.mem_range
  have hmem2 : ∀ u, u ∈ order2 ↔ u < g.n := fun u => h2.mem_iff.trans List.mem_range
  have hnd : order2.Nodup := h2.nodup_iff.2 List.nodup_range
  have hfill := fill_loop D (fun u => g.w (p.newToOld u)) order1 (garbage, garbageW)
  set new := order1.foldl (fun (s : (Nat → Nat) × (Nat → Int)) u =>
    (upd s.1 u (D u), upd s.2 u (g.w (p.newToOld u)))) (garbage, garbageW) with hnew
  -- offsets before the edges are moved
  have hpre : ∀ u, u < g.n → prefixSum (g.n + 1) new.1 u = psum D (u + 1) := by
    intro u hu
    rw [prefixSum_eq _ (by omega)]
    exact psum_congr fun i hi => ((hfill i).1 ((hmem1 i).2 (by omega))).1
  set nodes0 := upd (prefixSum (g.n + 1) new.1) g.n (if g.n > 0 then prefixSum (g.n + 1) new.1 (g.n - 1) else 0)
    with hnodes0
  have hn0 : ∀ u, u < g.n → nodes0 u = psum D (u + 1) := by
    intro u hu
    rw [hnodes0, upd_ne _ _ (by omega), hpre u hu]
  have hnn : nodes0 g.n = psum D g.n := by
    rw [hnodes0, upd_same]
    split
    · rename_i hpos
      rw [hpre _ (by omega), show g.n - 1 + 1 = g.n by omega]
    · rename_i hpos
      rw [show g.n = 0 by omega]; rfl
  obtain ⟨f, hf⟩ : ∃ f : Nat → Nat, f = fun v => if !ghosts || decide (v < g.n) then p.oldToNew v else v := ⟨_, rfl⟩
  obtain ⟨m1, m2, _⟩ := move_all g f p.newToOld D (fun u => by rw [hD]) order2 (nodes0, garbageE) hnd fun u hu =>
    hn0 u ((hmem2 u).1 hu)
  have hg' : g' = ⟨g.n, (order2.foldl (moveEdges g f p.newToOld) (nodes0, garbageE)).1,
      (order2.foldl (moveEdges g f p.newToOld) (nodes0, garbageE)).2, new.2⟩ := by
    rw [hnodes0, hnew, hD, hf]; rfl
  set r := order2.foldl (moveEdges g f p.newToOld) (nodes0, garbageE) with hr
  have hnodes : ∀ u, u ≤ g.n → r.1 u = psum D u := by
    intro u hu
    by_cases hun : u = g.n
    · rw [m2 u (by rw [hmem2]; omega), hun]; exact hnn
    · exact (m1 u ((hmem2 u).2 (by omega))).1
  refine ⟨by rw [hg']; rfl, ?_, ?_, ?_⟩
  · intro u hu
    rw [hg']
    show new.2 (p.oldToNew u) = g.w u
    rw [((hfill _).1 ((hmem1 _).2 (hp1 u hu).1)).2, (hp1 u hu).2]
  · intro u hu
    rw [hg']
    obtain ⟨x, hx⟩ : ∃ x, x = p.oldToNew u := ⟨_, rfl⟩
    have hxn : x < g.n := hx ▸ (hp1 u hu).1
    have hxu : p.newToOld x = u := by rw [hx]; exact (hp1 u hu).2
    rw [← hx]
    show (List.range' (r.1 x) (r.1 (x + 1) - r.1 x)).map r.2 = _
    have hps : psum D (x + 1) = psum D x + D x := rfl
    have hDx : D x = g.nodes (u + 1) - g.nodes u := by rw [hD]; simp only [hxu]
    rw [hnodes x (by omega), hnodes (x + 1) (by omega), show psum D (x + 1) - psum D x = D x by omega]
    show _ = (((List.range' (g.nodes u) (g.nodes (u + 1) - g.nodes u)).map g.edges).map _).reverse
    rw [← hDx]
    apply List.ext_getElem
    · simp
    · intro i hi1 hi2
      have hi : i < D x := by simpa using hi1
      have := (m1 x ((hmem2 x).2 hxn)).2 (D x - 1 - i) (by omega)
      rw [show psum D (x + 1) - 1 - (D x - 1 - i) = psum D x + i by omega, hxu] at this
      simp only [List.getElem_map, List.getElem_range', List.getElem_reverse, List.length_map, List.length_range',
        Nat.one_mul]
      rw [this, hf]
      simp
  · rw [hg']
    refine ⟨(hnodes 0 (Nat.zero_le _)).trans rfl, fun u hu => ?_⟩
    show r.1 u ≤ r.1 (u + 1)
    rw [hnodes u (by omega), hnodes (u + 1) (by omega)]
    exact psum_le (by omega)

/-- Non-vacuity: four nodes with degrees 2, 0, 1, 1 and three threads, calls in a different order. -/
example :
    let bk : Nat → Nat := fun u => if u = 0 then 2 else if u = 1 then 32 else 1
    let p := byBuckets 3 4 33 bk (fun _ => 77) [(3, 4, 2), (0, 2, 0), (2, 3, 1)] [(2, 3, 1), (3, 4, 2), (0, 2, 0)] [3, 1, 0, 2]
    [(3, 4, 2), (0, 2, 0), (2, 3, 1)].Perm (deterministicForCalls 3 0 4) ∧
    (List.range 4).map p.oldToNew = [2, 3, 0, 1] ∧ (List.range 4).map p.newToOld = [2, 3, 0, 1] := by
  decide +kernel

/-- Non-vacuity: a path with an isolated node. -/
example :
    let g : Csr := ⟨4, fun u => [0, 2, 2, 3, 4].getD u 0, fun e => [(2, 5), (3, 6), (0, 5), (0, 6)].getD e (0, 0), fun u => u⟩
    let p : NodePermutations := ⟨fun u => [2, 3, 0, 1].getD u 0, fun u => [2, 3, 0, 1].getD u 0⟩
    let g' := buildPermuted false g p [3, 1, 2, 0] [2, 0, 1, 3] (fun _ => 9) (fun _ => (9, 9)) fun _ => 9
    (∀ u, u < g.n → p.oldToNew u < g.n ∧ p.newToOld (p.oldToNew u) = u) ∧
    (List.range 4).map g'.graph.adj = [[(2, 5)], [(2, 6)], [(1, 6), (0, 5)], []] := by
  decide +kernel

end Verif.Permute
