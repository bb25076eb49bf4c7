import Verif.Reduce.Model
import Verif.Sum

/-!
# C47: parallel reductions and prefix sums equal their sequential results
-/

namespace Verif.Reduce
open Finset

theorem foldl_assoc {α : Type} {op : α → α → α} (hassoc : ∀ a b c, op (op a b) c = op a (op b c)) (f : Nat → α) :
    ∀ (l : List Nat) (a b : α), op a (l.foldl (fun ans i => op ans (f i)) b) =
      l.foldl (fun ans i => op ans (f i)) (op a b)
  | [], a, b => rfl
  | i :: l, a, b => by rw [List.foldl_cons, foldl_assoc hassoc f l, List.foldl_cons, hassoc]

theorem foldl_step {α : Type} {op : α → α → α} (f : Nat → α) : ∀ (rs : List (Nat × Nat)) (a : α),
    rs.foldl (step op f) a = (rs.flatMap indices).foldl (fun ans i => op ans (f i)) a
  | [], a => rfl
  | r :: rs, a => by
    rw [List.foldl_cons, foldl_step f rs, List.flatMap_cons, List.foldl_append]; rfl

theorem eval_eq {α : Type} {op : α → α → α} {e : α} (hassoc : ∀ a b c, op (op a b) c = op a (op b c))
    (he : ∀ a, op a e = a) (f : Nat → α) : ∀ s : Sched,
    s.eval op e f = (s.ranges.flatMap indices).foldl (fun ans i => op ans (f i)) e
  | .body rs => foldl_step f rs e
  | .join l r => by
    rw [Sched.eval, eval_eq hassoc he f l, eval_eq hassoc he f r, foldl_assoc hassoc, he, Sched.ranges,
      List.flatMap_append, List.foldl_append]

/-- **C47, reductions in general.**  For every associative operation with a neutral initial value, every way
to split the index range among bodies and every way to join them gives the sequential result. -/
theorem C47_reduction {α : Type} (op : α → α → α) (e : α) (hassoc : ∀ a b c, op (op a b) c = op a (op b c))
    (he : ∀ a, op a e = a) (f : Nat → α) (n : Nat) (s : Sched) (hs : s.covers 0 n) :
    s.eval op e f = (List.range n).foldl (fun ans i => op ans (f i)) e := by
  rw [eval_eq hassoc he, hs, List.range_eq_range', Nat.sub_zero]

theorem foldl_add (f : Nat → Int) : ∀ (l : List Nat) (a : Int),
    l.foldl (fun s i => s + f i) a = a + (l.map f).sum
  | [], a => by simp
  | x :: l, a => by rw [List.foldl_cons, foldl_add f l, List.map_cons, List.sum_cons, add_assoc]

theorem sum_range_list (n : Nat) (f : Nat → Int) : ∑ u ∈ range n, f u = ((List.range n).map f).sum := by
  rw [Finset.sum_eq_multiset_sum]; rfl

/-- **C47, sums.** -/
theorem C47_accumulate (f : Nat → Int) (initial : Int) (n : Nat) (s : Sched) (hs : s.covers 0 n) :
    accumulate f initial s = initial + ∑ i ∈ range n, f i := by
  unfold accumulate
  rw [C47_reduction (· + ·) 0 add_assoc add_zero f n s hs, foldl_add, zero_add, sum_range_list]

theorem foldl_max_spec (f : Nat → Int) : ∀ (l : List Nat) (a : Int),
    (a ≤ l.foldl (fun s i => max s (f i)) a ∧ ∀ i ∈ l, f i ≤ l.foldl (fun s i => max s (f i)) a) ∧
      (l.foldl (fun s i => max s (f i)) a = a ∨ ∃ i ∈ l, l.foldl (fun s i => max s (f i)) a = f i)
  | [], a => ⟨⟨le_refl _, fun i hi => absurd hi List.not_mem_nil⟩, Or.inl rfl⟩
  | x :: l, a => by
    obtain ⟨⟨h1, h2⟩, h3⟩ := foldl_max_spec f l (max a (f x))
    rw [List.foldl_cons]
    refine ⟨⟨le_trans (le_max_left _ _) h1, ?_⟩, ?_⟩
    · intro i hi
      rcases List.mem_cons.1 hi with rfl | hi
      · exact le_trans (le_max_right _ _) h1
      · exact h2 i hi
    · rcases h3 with h3 | ⟨i, hi, h3⟩
      · rcases max_choice a (f x) with h4 | h4
        · exact Or.inl (h3.trans h4)
        · exact Or.inr ⟨x, List.mem_cons_self, h3.trans h4⟩
      · exact Or.inr ⟨i, List.mem_cons_of_mem _ hi, h3⟩

/-- The parallel maximum equals the sequential one even where `lowest` is not neutral. -/
theorem eval_max {lowest : Int} (f : Nat → Int) : ∀ s : Sched,
    s.eval max lowest f = (s.ranges.flatMap indices).foldl (fun ans i => max ans (f i)) lowest
  | .body rs => foldl_step f rs lowest
  | .join l r => by
    rw [Sched.eval, eval_max f l, eval_max f r, foldl_assoc (fun a b c => max_assoc a b c), Sched.ranges,
      List.flatMap_append, List.foldl_append]
    congr 1
    exact max_eq_left (foldl_max_spec f _ lowest).1.1

/-- **C47, maximum.**  The largest element, if there is one and the values are representable. -/
theorem C47_max_element (lowest : Int) (f : Nat → Int) (n : Nat) (hn : 0 < n) (hf : ∀ i, i < n → lowest ≤ f i)
    (s : Sched) (hs : s.covers 0 n) :
    (∀ i, i < n → f i ≤ maxElement lowest f s) ∧ ∃ i, i < n ∧ maxElement lowest f s = f i := by
  unfold maxElement
  rw [eval_max, hs, Nat.sub_zero, ← List.range_eq_range']
  obtain ⟨⟨h1, h2⟩, h3⟩ := foldl_max_spec f (List.range n) lowest
  refine ⟨fun i hi => h2 i (List.mem_range.2 hi), ?_⟩
  rcases h3 with h3 | ⟨i, hi, h3⟩
  · refine ⟨0, hn, le_antisymm ?_ (h2 0 (List.mem_range.2 hn))⟩
    rw [h3]; exact hf 0 hn
  · exact ⟨i, List.mem_range.1 hi, h3⟩

theorem foldl_max_nat (f : Nat → Nat) : ∀ (l : List Nat) (a : Nat),
    (a ≤ l.foldl (fun s i => max s (f i)) a ∧ ∀ i ∈ l, f i ≤ l.foldl (fun s i => max s (f i)) a) ∧
      (l.foldl (fun s i => max s (f i)) a = a ∨ ∃ i ∈ l, l.foldl (fun s i => max s (f i)) a = f i)
  | [], a => ⟨⟨le_refl _, fun i hi => absurd hi List.not_mem_nil⟩, Or.inl rfl⟩
  | x :: l, a => by
    obtain ⟨⟨h1, h2⟩, h3⟩ := foldl_max_nat f l (max a (f x))
    rw [List.foldl_cons]
    refine ⟨⟨le_trans (le_max_left _ _) h1, ?_⟩, ?_⟩
    · intro i hi
      rcases List.mem_cons.1 hi with rfl | hi
      · exact le_trans (le_max_right _ _) h1
      · exact h2 i hi
    · rcases h3 with h3 | ⟨i, hi, h3⟩
      · rcases max_choice a (f x) with h4 | h4
        · exact Or.inl (h3.trans h4)
        · exact Or.inr ⟨x, List.mem_cons_self, h3.trans h4⟩
      · exact Or.inr ⟨i, List.mem_cons_of_mem _ hi, h3⟩

/-- **C47, largest difference.**  The largest difference of consecutive elements (0 if there are fewer than
two elements). -/
theorem C47_max_difference (a : Nat → Nat) (size : Nat) (s : Sched) (hs : s.covers 0 (size - 1)) :
    (∀ i, i + 1 < size → a (i + 1) - a i ≤ maxDifference a size s) ∧
      (maxDifference a size s = 0 ∨ ∃ i, i + 1 < size ∧ maxDifference a size s = a (i + 1) - a i) := by
  unfold maxDifference
  split
  · exact ⟨fun i hi => by omega, Or.inl rfl⟩
  split
  · exact ⟨fun i hi => by omega, Or.inl rfl⟩
  rw [C47_reduction max 0 (fun a b c => max_assoc a b c) (fun a => Nat.max_zero a) _ (size - 1) s hs]
  obtain ⟨⟨h1, h2⟩, h3⟩ := foldl_max_nat (fun i => a (i + 1) - a i) (List.range (size - 1)) 0
  refine ⟨fun i hi => h2 i (List.mem_range.2 (by omega)), ?_⟩
  rcases h3 with h3 | ⟨i, hi, h3⟩
  · exact Or.inl h3
  · exact Or.inr ⟨i, by have := List.mem_range.1 hi; omega, h3⟩

/-! ## Prefix sums -/

theorem scan_loop : ∀ (len a : Nat) (mt : (Nat → Int) × Int),
    let r := (List.range' a len).foldl
      (fun (mt : (Nat → Int) × Int) i => (upd mt.1 i (mt.2 + mt.1 i), mt.2 + mt.1 i)) mt
    (∀ q, a ≤ q → q < a + len → r.1 q = mt.2 + ((List.range' a (q + 1 - a)).map mt.1).sum) ∧
      (∀ q, ¬ (a ≤ q ∧ q < a + len) → r.1 q = mt.1 q)
  | 0, a, mt => ⟨fun q h1 h2 => by omega, fun q _ => rfl⟩
  | len + 1, a, (m, t) => by
    obtain ⟨h1, h2⟩ := scan_loop len (a + 1) (upd m a (t + m a), t + m a)
    rw [List.range'_succ, List.foldl_cons]
    dsimp only at h1 h2 ⊢
    refine ⟨?_, ?_⟩
    · intro q hq1 hq2
      by_cases hqa : q = a
      · subst hqa
        rw [h2 q (by omega), upd_same, Nat.add_sub_cancel_left]
        simp
      · rw [h1 q (by omega) (by omega), show q + 1 - a = (q + 1 - (a + 1)) + 1 by omega, List.range'_succ,
          List.map_cons, List.sum_cons, add_assoc]
        congr 3
        apply List.map_congr_left
        intro j hj
        have := List.mem_range'_1.1 hj
        exact upd_ne _ _ (by omega)
    · intro q hq
      rw [h2 q (by omega), upd_ne _ _ (by omega)]

theorem finalScan_spec (m : Nat → Int) (c : (Nat × Nat) × Int) (q : Nat) :
    (c.1.1 ≤ q ∧ q < c.1.2 → finalScan m c q = c.2 + ((List.range' c.1.1 (q + 1 - c.1.1)).map m).sum) ∧
      (¬ (c.1.1 ≤ q ∧ q < c.1.2) → finalScan m c q = m q) := by
  obtain ⟨h1, h2⟩ := scan_loop (c.1.2 - c.1.1) c.1.1 (m, c.2)
  refine ⟨fun h => h1 q (by omega) (by omega), fun h => h2 q (by omega)⟩

/-- **C47, prefix sums in place.**  If the ranges are disjoint, cover `0..n-1`, and the sum handed to each
range was computed over exactly the indices before it (in any way), then in whatever order the ranges are
scanned, element `i` becomes the sum of the input elements `0..i`. -/
theorem C47_prefix_sum (m : Nat → Int) (n : Nat) (chunks : List ((Nat × Nat) × Sched))
    (hcover : ∀ i, i < n → ∃ c ∈ chunks, c.1.1 ≤ i ∧ i < c.1.2)
    (hdis : chunks.Pairwise fun c d => ∀ i, c.1.1 ≤ i ∧ i < c.1.2 → ¬ (d.1.1 ≤ i ∧ i < d.1.2))
    (hsum : ∀ c ∈ chunks, c.2.covers 0 c.1.1) :
    ∀ i, i < n → prefixSum m chunks i = ∑ j ∈ range (i + 1), m j := by
  intro i hi
  obtain ⟨c, hc, hci⟩ := hcover i hi
  unfold prefixSum
  have := (foldl_disjoint_local (op := finalScan) (W := fun c i => c.1.1 ≤ i ∧ i < c.1.2)
    (l := chunks.map fun c => (c.1, c.2.eval (· + ·) 0 m)) ?_ ?_ ?_ m i).1
    (c.1, c.2.eval (· + ·) 0 m) (List.mem_map.2 ⟨c, hc, rfl⟩) hci
  · rw [this, (finalScan_spec m _ i).1 hci]
    show c.2.eval (· + ·) 0 m + _ = _
    rw [C47_reduction (· + ·) 0 add_assoc add_zero m c.1.1 c.2 (hsum c hc), foldl_add, zero_add, sum_range_list,
      ← List.sum_append, ← List.map_append]
    congr 2
    show List.range c.1.1 ++ List.range' c.1.1 (i + 1 - c.1.1) = _
    rw [List.range_eq_range', List.range_eq_range']
    have := List.range'_append (s := 0) (m := c.1.1) (n := i + 1 - c.1.1) (step := 1)
    simp only [Nat.one_mul, Nat.zero_add] at this
    rw [this]
    congr 1
    omega
  · intro m1 m2 x _ hm q hq
    rw [(finalScan_spec m1 x q).1 hq, (finalScan_spec m2 x q).1 hq]
    congr 2
    apply List.map_congr_left
    intro j hj
    have := List.mem_range'_1.1 hj
    exact hm j (by omega)
  · intro m1 x _ q hq
    exact (finalScan_spec m1 x q).2 hq
  · rw [List.pairwise_map]
    exact hdis

/-- Non-vacuity: five elements, two bodies, one of which processes two ranges. -/
example : (Sched.join (.body [(0, 2), (2, 3)]) (.body [(3, 5)])).covers 0 5 ∧
    accumulate (fun i => i) 7 (.join (.body [(0, 2), (2, 3)]) (.body [(3, 5)])) = 17 ∧
    (List.range 5).map (prefixSum (fun i => i) [((3, 5), .body [(0, 3)]), ((0, 3), .body [])]) = [0, 1, 3, 6, 10] := by
  unfold Sched.covers
  decide

end Verif.Reduce
