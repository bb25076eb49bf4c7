import Verif.PrefixSum.Model
import Verif.Math.Lemmas
import Verif.Math.Props

/-!
# C16: aligned prefix sums allocate disjoint, aligned slots
-/

namespace Verif.PrefixSum
open Verif.Math

/-- Specification.  `num` entries, entry `i` with alignment `(l i).1` (0: none) and size `(l i).2`, are
placed at `start i`: each start is aligned, entries do not overlap and end at or below `total`. -/
structure Layout (l : Nat → Nat × Nat) (num : Nat) (start : Nat → Nat) (total : Nat) : Prop where
  aligned : ∀ i, i < num → (l i).1 > 0 → (l i).1 ∣ start i
  disjoint : ∀ i j, i < j → j < num → start i + (l i).2 ≤ start j
  below : ∀ i, i < num → start i + (l i).2 ≤ total

theorem alignUp_dvd {a : Nat} (ha : 0 < a) (x : Nat) : a ∣ alignUp a x := by
  unfold alignUp
  apply Nat.dvd_of_mod_eq_zero
  have h1 := Nat.mod_lt x ha
  by_cases h : x % a = 0
  · rw [h, Nat.sub_zero, Nat.mod_self, Nat.add_zero, h]
  · rw [Nat.mod_eq_of_lt (a := a - x % a) (by omega)]
    have h2 := Nat.div_add_mod x a
    rw [show x + (a - x % a) = a * (x / a + 1) by rw [Nat.mul_add]; omega]
    exact Nat.mul_mod_right _ _

theorem le_alignUp (a x : Nat) : x ≤ alignUp a x := Nat.le_add_right _ _

/-- The intended starts of consecutive entries. -/
def off (l : Nat → Nat × Nat) : Nat → Nat
  | 0 => 0
  | i + 1 => if (l (i + 1)).1 > 0 then alignUp (l (i + 1)).1 (off l i + (l i).2) else off l i + (l i).2

theorem off_dvd (l : Nat → Nat × Nat) : ∀ i, (l i).1 > 0 → (l i).1 ∣ off l i
  | 0, _ => ⟨0, rfl⟩
  | i + 1, h => by
    rw [off, if_pos h]; exact alignUp_dvd h _

theorem off_succ (l : Nat → Nat × Nat) (i : Nat) : off l i + (l i).2 ≤ off l (i + 1) := by
  rw [off]; split
  · exact le_alignUp ..
  · exact Nat.le_refl _

/-- The loop of the sequential algorithm. -/
theorem seqLoop (l : Nat → Nat × Nat) (b : Nat) (m : Nat → Nat) : ∀ n, 0 < n →
    (∀ i, 0 < i → i < n → (List.range n).foldl (seqStep l b) m (b + i) = off l i) ∧
    (List.range n).foldl (seqStep l b) m (b + n) = off l (n - 1) + (l (n - 1)).2 ∧
    ∀ q, q ≤ b ∨ b + n < q → (List.range n).foldl (seqStep l b) m q = m q := by
  intro n
  induction n with
  | zero => intro h; omega
  | succ n ih =>
    intro _
    rw [List.range_succ, List.foldl_append, List.foldl_cons, List.foldl_nil]
    by_cases hn : n = 0
    · subst hn
      refine ⟨fun i h1 h2 => by omega, ?_, ?_⟩
      · show seqStep l b m 0 (b + 1) = _
        unfold seqStep
        rw [show b + 0 + 1 = b + 1 by omega, upd_same]
        rfl
      · intro q hq
        show seqStep l b m 0 q = m q
        unfold seqStep
        rw [if_neg (fun h => Nat.lt_irrefl _ h.1)]
        exact upd_ne _ _ (by omega)
    · obtain ⟨h1, h2, h3⟩ := ih (by omega)
      generalize (List.range n).foldl (seqStep l b) m = m1 at *
      -- the array after aligning the current start
      obtain ⟨m2, hm2, h4, h5⟩ : ∃ m2, (if n > 0 ∧ (l n).1 > 0 then
          upd m1 (b + n) (alignUp (l n).1 (m1 (b + n))) else m1) = m2 ∧
          m2 (b + n) = off l n ∧ ∀ q, q ≠ b + n → m2 q = m1 q := by
        obtain ⟨k, rfl⟩ : ∃ k, n = k + 1 := ⟨n - 1, by omega⟩
        rw [Nat.add_sub_cancel] at h2
        by_cases ha : (l (k + 1)).1 > 0
        · refine ⟨_, rfl, ?_, ?_⟩
          · rw [if_pos ⟨by omega, ha⟩, upd_same, h2, off, if_pos ha]
          · intro q hq; rw [if_pos ⟨by omega, ha⟩, upd_ne _ _ hq]
        · refine ⟨_, rfl, ?_, ?_⟩
          · rw [if_neg (fun h => ha h.2), h2, off, if_neg ha]
          · intro q hq; rw [if_neg (fun h => ha h.2)]
      have hstep : seqStep l b m1 n = upd m2 (b + n + 1) (m2 (b + n) + (l n).2) := by
        unfold seqStep
        simp only [hm2]
        rw [if_pos (by omega)]
      rw [hstep]
      refine ⟨?_, ?_, ?_⟩
      · intro i hi hin
        rw [upd_ne _ _ (by omega)]
        by_cases hi' : i = n
        · rw [hi', h4]
        · rw [h5 _ (by omega), h1 i hi (by omega)]
      · rw [show b + (n + 1) = b + n + 1 by omega, upd_same, h4, Nat.add_sub_cancel]
      · intro q hq
        rw [upd_ne _ _ (by omega), h5 _ (by omega), h3 q (by omega)]

/-- The sequential algorithm writes the starts of all entries but the first, and nothing else. -/
theorem seq_spec (l : Nat → Nat × Nat) (b n : Nat) (hn : 0 < n) (m : Nat → Nat) :
    (∀ q, (seq l b (n + 1) m).1 q = if b < q ∧ q ≤ b + n then off l (q - b) else m q) ∧
    (seq l b (n + 1) m).2 = off l n := by
  obtain ⟨h1, h2, h3⟩ := seqLoop l b m n hn
  have hd : seq l b (n + 1) m =
      (if (l n).1 > 0 then upd ((List.range n).foldl (seqStep l b) m) (b + n)
        (alignUp (l n).1 ((List.range n).foldl (seqStep l b) m (b + n)))
      else (List.range n).foldl (seqStep l b) m,
      (if (l n).1 > 0 then upd ((List.range n).foldl (seqStep l b) m) (b + n)
        (alignUp (l n).1 ((List.range n).foldl (seqStep l b) m (b + n)))
      else (List.range n).foldl (seqStep l b) m) (b + n)) := by
    unfold seq
    rw [if_neg (by omega)]
    simp only [Nat.add_sub_cancel]
    rw [if_neg (by omega)]
  rw [hd]
  generalize (List.range n).foldl (seqStep l b) m = m1 at *
  have hlast : (if (l n).1 > 0 then upd m1 (b + n) (alignUp (l n).1 (m1 (b + n))) else m1) (b + n) =
      off l n := by
    obtain ⟨k, rfl⟩ : ∃ k, n = k + 1 := ⟨n - 1, by omega⟩
    rw [Nat.add_sub_cancel] at h2
    split
    · rename_i ha; rw [upd_same, h2, off, if_pos ha]
    · rename_i ha; rw [h2, off, if_neg ha]
  refine ⟨?_, hlast⟩
  intro q
  show (if (l n).1 > 0 then upd m1 (b + n) (alignUp (l n).1 (m1 (b + n))) else m1) q = _
  by_cases hq : q = b + n
  · rw [hq, hlast, if_pos (by omega), Nat.add_sub_cancel_left]
  · have : (if (l n).1 > 0 then upd m1 (b + n) (alignUp (l n).1 (m1 (b + n))) else m1) q = m1 q := by
      split
      · rw [upd_ne _ _ hq]
      · rfl
    rw [this]
    split
    · rename_i hc
      have := h1 (q - b) (by omega) (by omega)
      rwa [show b + (q - b) = q by omega] at this
    · exact h3 q (by omega)

theorem layout_mono {f g : Nat → Nat} {num : Nat} (h : ∀ i, i + 1 < num → f i + g i ≤ f (i + 1)) :
    ∀ i j, i < j → j < num → f i + g i ≤ f j := by
  intro i j hij
  induction j with
  | zero => omega
  | succ j ih =>
    intro hj
    by_cases hi : i = j
    · subst hi; exact h i hj
    · have := ih (by omega) (by omega)
      have := h j hj
      omega

/-- **C16, sequential algorithm.**  On an array of `num + 1` elements whose first element is 0 it places
`num` entries and returns the end of the last one (aligned for entry `num`, whose size is not used). -/
theorem C16_sequential (l : Nat → Nat × Nat) (num : Nat) (hnum : 0 < num) (m : Nat → Nat) (h0 : m 0 = 0) :
    Layout l num (seq l 0 (num + 1) m).1 (seq l 0 (num + 1) m).2 ∧
      (seq l 0 (num + 1) m).1 num = (seq l 0 (num + 1) m).2 := by
  obtain ⟨h1, h2⟩ := seq_spec l 0 num hnum m
  have h3 : ∀ q, q ≤ num → (seq l 0 (num + 1) m).1 q = off l q := by
    intro q hq
    rw [h1]
    split
    · rfl
    · rw [show q = 0 by omega, h0]; rfl
  have hdis := layout_mono (f := off l) (g := fun i => (l i).2) (num := num + 1)
    fun i _ => off_succ l i
  refine ⟨⟨?_, ?_, ?_⟩, ?_⟩
  · intro i hi ha; rw [h3 i (by omega)]; exact off_dvd l i ha
  · intro i j hij hj; rw [h3 i (by omega), h3 j (by omega)]; exact hdis i j hij (by omega)
  · intro i hi; rw [h3 i (by omega), h2]; exact hdis i num hi (by omega)
  · rw [h3 num (Nat.le_refl _), h2]

example : (seq (fun i => [(4, 5), (8, 3), (2, 1), (1, 0)].getD i (0, 0)) 0 4 (fun _ => 0)).2 = 13 := by
  decide

/-! ## The parallel algorithm -/

/-- The cells of a call. -/
def cells (c : Nat × Nat × Nat) (q : Nat) : Prop := c.1 < q ∧ q ≤ c.2.1

theorem pass1_spec (l : Nat → Nat × Nat) (m : Nat → Nat) (c : Nat × Nat × Nat) (hc : c.1 < c.2.1) (q : Nat) :
    (cells c q → pass1 l m c q = off (fun i => l (c.1 + i)) (q - c.1)) ∧
      (¬ cells c q → pass1 l m c q = m q) := by
  have := (seq_spec (fun i => l (c.1 + i)) c.1 (c.2.1 - c.1) (by omega) m).1 q
  unfold pass1 cells
  rw [show c.2.1 + 1 - c.1 = c.2.1 - c.1 + 1 by omega, this]
  constructor
  · intro h; rw [if_pos (by omega)]
  · intro h; rw [if_neg (by omega)]

theorem addLoop (v : Nat) : ∀ (k s : Nat) (m : Nat → Nat) (q : Nat),
    (List.range' s k).foldl (fun m i => upd m i (m i + v)) m q =
      if s ≤ q ∧ q < s + k then m q + v else m q
  | 0, s, m, q => by rw [if_neg (by omega)]; rfl
  | k + 1, s, m, q => by
    rw [List.range'_succ, List.foldl_cons, addLoop v k (s + 1)]
    by_cases hq : q = s
    · subst hq
      rw [if_neg (by omega), if_pos (by omega), upd_same]
    · rw [upd_ne _ _ hq]
      by_cases h : s + 1 ≤ q ∧ q < s + 1 + k
      · rw [if_pos h, if_pos (by omega)]
      · rw [if_neg h, if_neg (by omega)]

theorem pass2_spec (ps : Nat → Nat) (m : Nat → Nat) (c : Nat × Nat × Nat) (q : Nat) :
    (cells c q → pass2 ps m c q = m q + ps c.2.2) ∧ (¬ cells c q → pass2 ps m c q = m q) := by
  unfold pass2 cells
  rw [addLoop]
  constructor
  · intro h; rw [if_pos (by omega)]
  · intro h; rw [if_neg (by omega)]

/-- The calls made for `n` elements and `ncpus` workers, `0 < ncpus ≤ n`. -/
theorem calls_eq {n p maxConc : Nat} (hn : 0 < n) (hc : 0 < maxConc) (hp : p = min maxConc n) :
    deterministicForCalls maxConc 0 n =
      (List.range p).map fun cpu => (lrFrom n p cpu, lrFrom n p (cpu + 1), cpu) := by
  unfold deterministicForCalls
  simp only [Nat.sub_zero]
  rw [← hp, ← List.filterMap_eq_map]
  apply filterMap_congr'
  intro cpu hcpu
  rw [localRange_eq (by omega) (List.mem_range.1 hcpu)]
  simp

theorem lr_lt {n p c : Nat} (hp : 0 < p) (hpn : p ≤ n) : lrFrom n p c < lrFrom n p (c + 1) := by
  rw [lrFrom_succ]
  have := Nat.div_pos hpn hp
  split <;> omega

/-- The chunk of an element. -/
theorem lr_exists {n p : Nat} (hp : 0 < p) {e : Nat} (he : e < n) :
    ∃ c, c < p ∧ lrFrom n p c ≤ e ∧ e < lrFrom n p (c + 1) := by
  obtain ⟨r, _, h1, h2, h3⟩ := localRangeRank_spec (w := n) hp he Nat.lt_two_pow_self
  exact ⟨r, h1, h2, h3⟩

/-- Entries of the array of prefix sums. -/
theorem prefixSums_spec {n p : Nat} (hp : 0 < p) (hpn : p ≤ n) (m : Nat → Nat) {c : Nat} (hc : c + 1 < p) :
    prefixSums n p m (c + 1) = alignUp 8 (prefixSums n p m c + m (lrFrom n p (c + 1))) := by
  rw [prefixSums, localRange_eq hp hc]
  simp only
  rw [if_neg (by have := lr_lt (c := c + 1) hp hpn; omega)]

theorem prefixSums_dvd {n p : Nat} (hp : 0 < p) (hpn : p ≤ n) (m : Nat → Nat) : ∀ {c : Nat}, c < p →
    8 ∣ prefixSums n p m c
  | 0, _ => ⟨0, rfl⟩
  | c + 1, hc => by rw [prefixSums_spec hp hpn m hc]; exact alignUp_dvd (by omega) _

/-- What the parallel algorithm computes: the starts within a chunk, moved by the prefix sum of the chunk. -/
theorem par_cells (l : Nat → Nat × Nat) (n maxConc : Nat) (hn : 0 < n) (hc : 0 < maxConc)
    (calls1 calls2 : List (Nat × Nat × Nat))
    (h1 : calls1.Perm (deterministicForCalls maxConc 0 n)) (h2 : calls2.Perm (deterministicForCalls maxConc 0 n))
    (m : Nat → Nat) {p : Nat} (hp : min maxConc n = p) : ∃ m1 m2 : Nat → Nat,
      par l (n + 1) p calls1 calls2 m = (m2, m2 n + (l n).2) ∧
      (∀ cpu, cpu < p → ∀ q, lrFrom n p cpu < q → q ≤ lrFrom n p (cpu + 1) →
        m1 q = off (fun i => l (lrFrom n p cpu + i)) (q - lrFrom n p cpu)) ∧
      (∀ cpu, cpu < p → ∀ q, lrFrom n p cpu < q → q ≤ lrFrom n p (cpu + 1) → m2 q = m1 q + prefixSums n p m1 cpu) ∧
      m2 0 = 0 := by
  have hp0 : 0 < p := by omega
  have hpn : p ≤ n := by omega
  rw [calls_eq hn hc hp.symm] at h1 h2
  generalize hm1 : calls1.foldl (pass1 l) (upd m 0 0) = m1
  generalize hm2 : calls2.foldl (pass2 (prefixSums n p m1)) m1 = m2
  have hpar : par l (n + 1) p calls1 calls2 m = (m2, m2 n + (l n).2) := by
    unfold par
    rw [if_neg (by omega)]
    simp only [Nat.add_sub_cancel, hm1, hm2]
    rw [if_neg (by omega)]
  -- calls are disjoint
  have hdis0 : ((List.range p).map fun cpu => (lrFrom n p cpu, lrFrom n p (cpu + 1), cpu)).Pairwise
      (fun x y => ∀ q, cells x q → ¬ cells y q) := by
    rw [List.pairwise_map]
    apply List.Pairwise.imp_of_mem _ (List.pairwise_lt_range (n := p))
    intro a b _ _ hab q ⟨h3, h4⟩ ⟨h5, h6⟩
    have := lrFrom_mono (n := n) (p := p) (show a + 1 ≤ b by omega)
    simp only at *
    omega
  have hsym : ∀ {x y : Nat × Nat × Nat}, (∀ q, cells x q → ¬ cells y q) → ∀ q, cells y q → ¬ cells x q :=
    fun h q h3 h4 => h q h4 h3
  have hd1 := (h1.pairwise_iff hsym).2 hdis0
  have hd2 := (h2.pairwise_iff hsym).2 hdis0
  have hmem : ∀ {calls : List (Nat × Nat × Nat)}, calls.Perm _ → ∀ {cpu}, cpu < p →
      (lrFrom n p cpu, lrFrom n p (cpu + 1), cpu) ∈ calls :=
    fun h _ hcpu => h.mem_iff.2 (List.mem_map.2 ⟨_, List.mem_range.2 hcpu, rfl⟩)
  have hform : ∀ {calls : List (Nat × Nat × Nat)},
      calls.Perm ((List.range p).map fun cpu => (lrFrom n p cpu, lrFrom n p (cpu + 1), cpu)) →
      ∀ c ∈ calls, c.1 < c.2.1 := by
    intro calls h c hcm
    obtain ⟨cpu, _, rfl⟩ := List.mem_map.1 (h.mem_iff.1 hcm)
    exact lr_lt hp0 hpn
  -- the first loop
  have hp1 : ∀ cpu, cpu < p → ∀ q, lrFrom n p cpu < q → q ≤ lrFrom n p (cpu + 1) →
      m1 q = off (fun i => l (lrFrom n p cpu + i)) (q - lrFrom n p cpu) := by
    intro cpu hcpu q hq1 hq2
    rw [← hm1]
    exact (foldl_disjoint (op := pass1 l) (W := cells)
      (g := fun c q _ => off (fun i => l (c.1 + i)) (q - c.1))
      (fun m c hcm q => pass1_spec l m c (hform h1 c hcm) q) hd1 _ q).1 _ (hmem h1 hcpu) ⟨hq1, hq2⟩
  have hp2 : ∀ cpu, cpu < p → ∀ q, lrFrom n p cpu < q → q ≤ lrFrom n p (cpu + 1) →
      m2 q = m1 q + prefixSums n p m1 cpu := by
    intro cpu hcpu q hq1 hq2
    rw [← hm2]
    exact (foldl_disjoint (op := pass2 (prefixSums n p m1)) (W := cells)
      (g := fun c q v => v + prefixSums n p m1 c.2.2)
      (fun m c _ q => pass2_spec _ m c q) hd2 _ q).1 _ (hmem h2 hcpu) ⟨hq1, hq2⟩
  have h00 : m2 0 = 0 := by
    have hno : ∀ c : Nat × Nat × Nat, ¬ cells c 0 := fun c h => Nat.not_lt_zero _ h.1
    rw [← hm2, (foldl_disjoint (op := pass2 (prefixSums n p m1)) (W := cells)
      (g := fun c q v => v + prefixSums n p m1 c.2.2)
      (fun m c _ q => pass2_spec _ m c q) hd2 _ 0).2 (fun c _ => hno c), ← hm1,
      (foldl_disjoint (op := pass1 l) (W := cells)
      (g := fun c q _ => off (fun i => l (c.1 + i)) (q - c.1))
      (fun m c hcm q => pass1_spec l m c (hform h1 c hcm) q) hd1 _ 0).2 (fun c _ => hno c), upd_same]
  exact ⟨m1, m2, hpar, hp1, hp2, h00⟩

/-- **C16, parallel algorithm.**  For every number of entries except one, all alignments that divide 8,
all sizes, every number of threads and every order in which the calls of the two parallel loops are
executed, the array holds a correct layout and the returned value is its size. -/
theorem C16_parallel_partial (l : Nat → Nat × Nat) (num maxConc : Nat) (hnum : num ≠ 1) (hc : 0 < maxConc)
    (hal : ∀ i, i < num → (l i).1 = 0 ∨ (l i).1 ∣ 8)
    (calls1 calls2 : List (Nat × Nat × Nat))
    (h1 : calls1.Perm (deterministicForCalls maxConc 0 (num - 1)))
    (h2 : calls2.Perm (deterministicForCalls maxConc 0 (num - 1))) (m : Nat → Nat) :
    Layout l num (par l num (min maxConc (num - 1)) calls1 calls2 m).1
      (par l num (min maxConc (num - 1)) calls1 calls2 m).2 := by
  by_cases hz : num = 0
  · subst hz
    exact ⟨fun i h => absurd h (Nat.not_lt_zero _), fun i j _ h => absurd h (Nat.not_lt_zero _),
      fun i h => absurd h (Nat.not_lt_zero _)⟩
  obtain ⟨n, rfl⟩ : ∃ n, num = n + 1 := ⟨num - 1, by omega⟩
  rw [Nat.add_sub_cancel] at *
  have hn : 0 < n := by omega
  generalize hp : min maxConc n = p at *
  have hp0 : 0 < p := by omega
  have hpn : p ≤ n := by omega
  obtain ⟨m1, m2, hpar, hp1, hp2, h00⟩ := par_cells l n maxConc hn hc calls1 calls2 h1 h2 m hp
  rw [hpar]
  -- neighbouring entries
  have hstep : ∀ j, j < n → m2 j + (l j).2 ≤ m2 (j + 1) := by
    intro j hj
    obtain ⟨c, hcp, hc1, hc2⟩ := lr_exists hp0 hj
    rw [hp2 c hcp (j + 1) (by omega) (by omega), hp1 c hcp (j + 1) (by omega) (by omega)]
    by_cases hjc : j = lrFrom n p c
    · -- first entry of a chunk
      have hv : (l j).2 ≤ off (fun i => l (lrFrom n p c + i)) (j + 1 - lrFrom n p c) := by
        have := off_succ (fun i => l (lrFrom n p c + i)) 0
        rw [show j + 1 - lrFrom n p c = 0 + 1 by omega]
        simp only [Nat.add_zero, ← hjc] at this
        rw [← hjc]
        exact Nat.le_trans (Nat.le_add_left _ _) this
      have hs : m2 j ≤ prefixSums n p m1 c := by
        cases c with
        | zero =>
          rw [lrFrom_zero] at hjc
          rw [hjc, h00]; exact Nat.zero_le _
        | succ c =>
          have hlt := lr_lt (c := c) hp0 hpn
          rw [prefixSums_spec hp0 hpn m1 hcp, hp2 c (by omega) j (by omega) (by omega), ← hjc]
          have := le_alignUp 8 (prefixSums n p m1 c + m1 j)
          omega
      omega
    · rw [hp2 c hcp j (by omega) (by omega), hp1 c hcp j (by omega) (by omega)]
      have := off_succ (fun i => l (lrFrom n p c + i)) (j - lrFrom n p c)
      rw [show lrFrom n p c + (j - lrFrom n p c) = j by omega,
        show j - lrFrom n p c + 1 = j + 1 - lrFrom n p c by omega] at this
      omega
  have hdis := layout_mono (f := m2) (g := fun i => (l i).2) (num := n + 1)
    fun i hi => hstep i (by omega)
  refine ⟨?_, hdis, ?_⟩
  · intro i hi ha
    show (l i).1 ∣ m2 i
    cases i with
    | zero => rw [h00]; exact ⟨0, rfl⟩
    | succ j =>
      obtain ⟨c, hcp, hc1, hc2⟩ := lr_exists hp0 (show j < n by omega)
      rw [hp2 c hcp (j + 1) (by omega) (by omega), hp1 c hcp (j + 1) (by omega) (by omega)]
      have h8 : (l (j + 1)).1 ∣ 8 := by
        rcases hal (j + 1) hi with h | h
        · omega
        · exact h
      have := off_dvd (fun i => l (lrFrom n p c + i)) (j + 1 - lrFrom n p c)
      rw [show lrFrom n p c + (j + 1 - lrFrom n p c) = j + 1 by omega] at this
      exact Nat.dvd_add (this ha) (Nat.dvd_trans h8 (prefixSums_dvd hp0 hpn m1 hcp))
  · intro i hi
    show m2 i + _ ≤ m2 n + (l n).2
    by_cases hin : i = n
    · rw [hin]; exact Nat.le_refl _
    · have := hdis i n (by omega) (by omega)
      omega

theorem alignUp_lt {a : Nat} (ha : 0 < a) (x : Nat) : alignUp a x < x + a :=
  Nat.add_lt_add_left (Nat.mod_lt _ ha) x

theorem off_gap (l : Nat → Nat × Nat) (i : Nat) (h : (l (i + 1)).1 = 0 ∨ (l (i + 1)).1 ∣ 8) :
    off l (i + 1) ≤ off l i + (l i).2 + 7 := by
  rw [off]; split
  · rename_i ha
    have h8 : (l (i + 1)).1 ≤ 8 := by
      rcases h with h | h
      · omega
      · exact Nat.le_of_dvd (by decide) h
    have := alignUp_lt ha (off l i + (l i).2)
    omega
  · omega

/-- **C16, parallel algorithm: no space is wasted.**  Between two entries there are at most 14 unused bytes, so that the
total exceeds the sum of the sizes by at most 14 bytes per entry. -/
theorem C16_padding (l : Nat → Nat × Nat) (num maxConc : Nat) (hnum : num ≠ 1) (hc : 0 < maxConc)
    (hal : ∀ i, i < num → (l i).1 = 0 ∨ (l i).1 ∣ 8)
    (calls1 calls2 : List (Nat × Nat × Nat))
    (h1 : calls1.Perm (deterministicForCalls maxConc 0 (num - 1)))
    (h2 : calls2.Perm (deterministicForCalls maxConc 0 (num - 1))) (m : Nat → Nat) :
    ∀ r, r = par l num (min maxConc (num - 1)) calls1 calls2 m →
      (0 < num → r.1 0 = 0 ∧ r.2 = r.1 (num - 1) + (l (num - 1)).2) ∧
      ∀ i, i + 1 < num → r.1 (i + 1) ≤ r.1 i + (l i).2 + 14 := by
  intro r hr
  by_cases hz : num = 0
  · subst hz
    exact ⟨fun h => absurd h (Nat.lt_irrefl _), fun i h => absurd h (Nat.not_lt_zero _)⟩
  obtain ⟨n, rfl⟩ : ∃ n, num = n + 1 := ⟨num - 1, by omega⟩
  rw [Nat.add_sub_cancel] at *
  have hn : 0 < n := by omega
  generalize hp : min maxConc n = p at *
  have hp0 : 0 < p := by omega
  have hpn : p ≤ n := by omega
  obtain ⟨m1, m2, hpar, hp1, hp2, h00⟩ := par_cells l n maxConc hn hc calls1 calls2 h1 h2 m hp
  rw [hr, hpar]
  refine ⟨fun _ => ⟨h00, rfl⟩, ?_⟩
  intro j hj
  show m2 (j + 1) ≤ m2 j + (l j).2 + 14
  obtain ⟨c, hcp, hc1, hc2⟩ := lr_exists hp0 (show j < n by omega)
  rw [hp2 c hcp (j + 1) (by omega) (by omega), hp1 c hcp (j + 1) (by omega) (by omega)]
  have hgap := off_gap (fun i => l (lrFrom n p c + i)) (j - lrFrom n p c)
    (by rw [show lrFrom n p c + (j - lrFrom n p c + 1) = j + 1 by omega]; exact hal (j + 1) hj)
  rw [show j - lrFrom n p c + 1 = j + 1 - lrFrom n p c by omega,
    show lrFrom n p c + (j - lrFrom n p c) = j by omega] at hgap
  by_cases hjc : j = lrFrom n p c
  · have h0 : off (fun i => l (lrFrom n p c + i)) (j - lrFrom n p c) = 0 := by
      rw [show j - lrFrom n p c = 0 by omega]; rfl
    have hs : prefixSums n p m1 c ≤ m2 j + 7 := by
      cases c with
      | zero => exact Nat.zero_le _
      | succ c =>
        have hlt := lr_lt (c := c) hp0 hpn
        rw [prefixSums_spec hp0 hpn m1 hcp, hp2 c (by omega) j (by omega) (by omega), ← hjc]
        have := alignUp_lt (a := 8) (by decide) (prefixSums n p m1 c + m1 j)
        omega
    omega
  · rw [hp2 c hcp j (by omega) (by omega), hp1 c hcp j (by omega) (by omega)]
    omega

/-- Non-vacuity: five entries, three threads, calls executed out of order. -/
example : ∃ calls : List (Nat × Nat × Nat), calls ≠ deterministicForCalls 3 0 4 ∧
    calls.Perm (deterministicForCalls 3 0 4) ∧
    (par (fun i => [(4, 5), (8, 3), (2, 1), (1, 7), (4, 4)].getD i (0, 0)) 5 3 calls calls
      (fun _ => 77)).2 = 36 :=
  ⟨[(3, 4, 2), (0, 2, 0), (2, 3, 1)], by decide, by decide, by decide⟩

/-- A single entry is not included in the returned total: the layout is wrong for `num = 1`. -/
theorem C16_single_entry_not_counted (m : Nat → Nat) :
    (par (fun _ => (1, 5)) 1 0 [] [] m).2 = 0 ∧
      ¬ Layout (fun _ => (1, 5)) 1 (par (fun _ => (1, 5)) 1 0 [] [] m).1
        (par (fun _ => (1, 5)) 1 0 [] [] m).2 := by
  refine ⟨rfl, fun h => ?_⟩
  have := h.below 0 (by omega)
  have h2 : (par (fun _ => (1, 5)) 1 0 [] [] m).2 = 0 := rfl
  simp only [h2] at this
  omega

/-- With alignments that do not divide 8 the parallel algorithm places entries at unaligned positions. -/
theorem C16_other_alignments_fail :
    ∃ (l : Nat → Nat × Nat), ¬ Layout l 3
      (par l 3 2 (deterministicForCalls 2 0 2) (deterministicForCalls 2 0 2) (fun _ => 0)).1
      (par l 3 2 (deterministicForCalls 2 0 2) (deterministicForCalls 2 0 2) (fun _ => 0)).2 := by
  refine ⟨fun i => (if i = 2 then 16 else 8, if i = 0 then 8 else 1), fun h => ?_⟩
  have := h.aligned 2 (by omega) (by decide)
  revert this
  decide

end Verif.PrefixSum
