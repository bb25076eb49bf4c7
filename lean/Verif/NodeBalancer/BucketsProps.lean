import Verif.NodeBalancer.BucketsLemmas

/-!
# C85: the proposals of the distributed node balancer
-/

namespace Verif.NodeBalancer.Sel
open Verif

/-! ## Queues -/

/-- **C85.** The queue of a thread holds all nodes that the thread visits, not only as many as are needed: the weight of the queue is never updated. -/
theorem C85_thread_queue {pick : List Elem → Nat} {o : Int} (ho : 0 < o) (l : List Elem) :
    l.foldlM (localInsert? pick o) ([], 0) = some (l.reverse, 0) := by
  have := local_all (pick := pick) ho l []
  rw [List.append_nil] at this
  exact this

/-- **C85.** The queue of an overloaded block holds enough nodes to remove the overload, or all nodes; no node that was left out is better than one
in the queue. -/
theorem C85_queue {pick : List Elem → Nat} (hp : PicksMin pick) {order : List Elem → List Elem} (horder : ∀ l, (order l).Perm l) {o : Int} (ho : 0 < o)
    {threads : List (List Elem)} (hw : ∀ e, e ∈ threads.flatten → 0 ≤ e.weight) :
    ∃ q dropped, fillQueue? pick order o threads = some (q, weightOf q) ∧ (q ++ dropped).Perm threads.flatten ∧
      (dropped = [] ∨ o ≤ weightOf q) ∧ ∀ x, x ∈ q → ∀ y, y ∈ dropped → y.gain ≤ x.gain := by
  have hperm : ((threads.map fun l => (l.reverse, (0 : Int))).flatMap fun q => order q.1).Perm threads.flatten := by
    clear hw
    induction threads with
    | nil => exact List.Perm.refl _
    | cons l ls ih =>
      rw [List.map_cons, List.flatMap_cons, List.flatten_cons]
      exact List.Perm.append ((horder _).trans (List.reverse_perm l)) ih
  obtain ⟨q, w, d, h1, h2⟩ := insert_all hp ho ((threads.map fun l => (l.reverse, (0 : Int))).flatMap fun q => order q.1) [] [] [] 0
    (fun e he => hw e (hperm.subset he)) ⟨List.Perm.refl _, rfl, Or.inl rfl, fun x hx => by cases hx⟩
  refine ⟨q, d, ?_, h2.perm.trans hperm, h2.enough, h2.best⟩
  unfold fillQueue?
  rw [mapM_some (g := fun l => (l.reverse, (0 : Int))) fun l _ => C85_thread_queue ho l, Option.bind_some, h1, h2.weight]

/-- The position of the first minimum. -/
def firstMin (l : List Elem) : Nat := l.findIdx fun m => l.all fun x => decide (m.gain ≤ x.gain)

theorem firstMin_ok : PicksMin firstMin := by
  intro l hl
  have hex : ∀ l : List Elem, l ≠ [] → ∃ m, m ∈ l ∧ ∀ x, x ∈ l → m.gain ≤ x.gain := by
    intro l
    induction l with
    | nil => exact fun h => absurd rfl h
    | cons a l ih =>
      intro _
      by_cases hn : l = []
      · subst hn
        exact ⟨a, List.mem_cons_self, fun x hx => by rw [List.mem_singleton] at hx; subst hx; exact Int.le_refl _⟩
      · obtain ⟨m, h1, h2⟩ := ih hn
        by_cases hle : a.gain ≤ m.gain
        · refine ⟨a, List.mem_cons_self, fun x hx => ?_⟩
          rcases List.mem_cons.1 hx with rfl | hx
          · exact Int.le_refl _
          · have := h2 x hx; omega
        · refine ⟨m, List.mem_cons_of_mem _ h1, fun x hx => ?_⟩
          rcases List.mem_cons.1 hx with rfl | hx
          · omega
          · exact h2 x hx
  obtain ⟨m, h1, h2⟩ := hex l hl
  have hlt : firstMin l < l.length := List.findIdx_lt_length_of_exists ⟨m, h1, by
    rw [List.all_eq_true]
    exact fun x hx => decide_eq_true (h2 x hx)⟩
  refine ⟨l[firstMin l], List.getElem?_eq_getElem hlt, fun x hx => ?_⟩
  have h3 : (l.all fun x => decide ((l[firstMin l]).gain ≤ x.gain)) = true := List.findIdx_getElem (xs := l) (w := hlt)
  exact of_decide_eq_true (List.all_eq_true.1 h3 x hx)

/-- Overload 5, two threads: the two best nodes stay in the queue. -/
example : fillQueue? firstMin id 5 [[⟨0, 3, -4⟩, ⟨1, 3, 2⟩], [⟨2, 1, -9⟩, ⟨3, 3, 0⟩]] = some ([⟨3, 3, 0⟩, ⟨1, 3, 2⟩], 6) := by decide +kernel

/-! ## Buckets -/

/-- **C85.** A node with a larger gain is never in a later bucket. -/
theorem C85_bucket_order {B : Conf} (hlg : ∀ x y, x ≤ y → B.lg x ≤ B.lg y) {g g' : Int} {i j : Nat} (h : g ≤ g') (hi : B.bucket? g = some i)
    (hj : B.bucket? g' = some j) : j ≤ i := by
  have key : ∀ x n, B.bucket? x = some n → B.index? x = some n := by
    intro x n hx
    unfold Conf.bucket? at hx
    cases hq : B.index? x with
    | none => rw [hq] at hx; cases hx
    | some m =>
      rw [hq, Option.bind_some] at hx
      by_cases hm : m < B.num
      · rw [if_pos hm] at hx; exact hx
      · rw [if_neg hm] at hx; cases hx
  have hi := key _ _ hi
  have hj := key _ _ hj
  have h0 : B.positive = false → B.neutral = 1 := by
    intro hp
    unfold Conf.neutral
    rw [hp]
    rfl
  unfold Conf.index? at hi hj
  by_cases g1 : 0 < g
  · have g1' : 0 < g' := by omega
    rw [if_pos g1] at hi
    rw [if_pos g1'] at hj
    by_cases hp : B.positive = true
    · rw [if_pos hp] at hi hj
      have hm := hlg g.toNat g'.toNat (by omega)
      by_cases l1 : B.lg g.toNat ≤ B.neutral
      · rw [if_pos l1] at hi
        by_cases l2 : B.lg g'.toNat ≤ B.neutral
        · rw [if_pos l2] at hj
          injection hi with hi
          injection hj with hj
          omega
        · rw [if_neg l2] at hj; cases hj
      · rw [if_neg l1] at hi; cases hi
    · rw [if_neg hp] at hi hj
      injection hi with hi
      injection hj with hj
      omega
  · rw [if_neg g1] at hi
    have hi' : B.neutral ≤ i := by
      by_cases g2 : g = 0
      · rw [if_pos g2] at hi; injection hi with hi; omega
      · rw [if_neg g2] at hi; injection hi with hi; omega
    by_cases g1' : 0 < g'
    · rw [if_pos g1'] at hj
      by_cases hp : B.positive = true
      · rw [if_pos hp] at hj
        by_cases l2 : B.lg g'.toNat ≤ B.neutral
        · rw [if_pos l2] at hj
          injection hj with hj
          omega
        · rw [if_neg l2] at hj; cases hj
      · rw [if_neg hp] at hj
        injection hj with hj
        omega
    · rw [if_neg g1'] at hj
      by_cases g2' : g' = 0
      · rw [if_pos g2'] at hj; injection hj with hj; omega
      · rw [if_neg g2'] at hj
        injection hj with hj
        have g2 : g ≠ 0 := by omega
        rw [if_neg g2] at hi
        injection hi with hi
        have hm := hlg (-g').toNat (-g).toNat (by omega)
        omega

/-- **C85.** Which buckets exist.  (Partial: without buckets for positive gains, the last bucket for negative gains is missing, `C85_bucket_beyond`.) -/
theorem C85_bucket_range_partial {B : Conf} {g : Int} (hneg : 0 < B.neg) (h : B.lg g.natAbs ≤ B.neg) (h' : B.positive = true ∨ 0 ≤ g ∨ B.lg g.natAbs < B.neg) :
    ∃ i, B.bucket? g = some i ∧ i < B.num := by
  have hnum : B.num = B.neg + (if B.positive = true then B.neg else 0) + 1 := rfl
  have hneu : B.neutral = if B.positive = true then B.num / 2 else 1 := rfl
  have main : ∃ i, B.index? g = some i ∧ i < B.num := by
    unfold Conf.index?
    by_cases g1 : 0 < g
    · rw [if_pos g1, show g.toNat = g.natAbs by omega]
      by_cases hp : B.positive = true
      · rw [if_pos hp] at hnum hneu ⊢
        rw [if_pos (by omega)]
        exact ⟨_, rfl, by omega⟩
      · rw [if_neg hp]
        exact ⟨_, rfl, by omega⟩
    · rw [if_neg g1]
      by_cases g2 : g = 0
      · rw [if_pos g2]
        refine ⟨_, rfl, ?_⟩
        by_cases hp : B.positive = true
        · rw [if_pos hp] at hnum hneu; omega
        · rw [if_neg hp] at hnum hneu; omega
      · rw [if_neg g2, show (-g).toNat = g.natAbs by omega]
        refine ⟨_, rfl, ?_⟩
        by_cases hp : B.positive = true
        · rw [if_pos hp] at hnum hneu; omega
        · rw [if_neg hp] at hnum hneu
          have : B.lg g.natAbs < B.neg := (h'.resolve_left hp).resolve_left (by omega)
          omega
  obtain ⟨i, h1, h2⟩ := main
  exact ⟨i, by unfold Conf.bucket?; rw [h1, Option.bind_some, if_pos h2], h2⟩

/-- **C85, not in general.** Without buckets for positive gains, the negative gains whose logarithm is the number of negative buckets have no bucket:
the weight is added to the first bucket of the next block, or beyond the end of the array. -/
theorem C85_bucket_beyond {B : Conf} {g : Int} (hp : B.positive = false) (hg : g < 0) (h : B.lg g.natAbs = B.neg) : B.bucket? g = none := by
  have hnum : B.num = B.neg + (if B.positive = true then B.neg else 0) + 1 := rfl
  have hneu : B.neutral = if B.positive = true then B.num / 2 else 1 := rfl
  rw [if_neg (by rw [hp]; decide)] at hnum hneu
  unfold Conf.bucket? Conf.index?
  rw [if_neg (by omega), if_neg (by omega), Option.bind_some, if_neg]
  rw [show (-g).toNat = g.natAbs by omega]
  omega

/-- **C85, not in general.** A gain whose logarithm is larger than the number of negative buckets has no bucket, even with buckets for positive gains.
Positive gains are multiplied with the weight of the node, so they can be as large as the product of an edge weight and a node weight. -/
theorem C85_gain_too_large {B : Conf} {g : Int} (hp : B.positive = true) (hg : g ≠ 0) (h : B.neg < B.lg g.natAbs) : B.bucket? g = none := by
  have hnum : B.num = B.neg + (if B.positive = true then B.neg else 0) + 1 := rfl
  have hneu : B.neutral = if B.positive = true then B.num / 2 else 1 := rfl
  rw [if_pos hp] at hnum hneu
  unfold Conf.bucket? Conf.index?
  by_cases h0 : 0 < g
  · rw [if_pos h0, if_pos hp, show g.toNat = g.natAbs by omega, if_neg (by omega)]
    rfl
  · rw [if_neg h0, if_neg hg, Option.bind_some, if_neg]
    rw [show (-g).toNat = g.natAbs by omega]
    omega

/-- The logarithm for base 2, and its number of negative buckets. -/
def baseTwo (positive : Bool) : Conf := ⟨positive, 53, fun x => if x = 0 then 0 else Nat.log2 x + 1⟩

example : (baseTwo true).bucket? (-(2 ^ 52)) = some 106 ∧ (baseTwo true).bucket? (2 ^ 53 - 1) = some 0 ∧ (baseTwo false).bucket? (-(2 ^ 52) + 1) = some 53 ∧
    (baseTwo false).bucket? (-(2 ^ 52)) = none ∧ (baseTwo true).bucket? (2 ^ 27 * 2 ^ 27) = none := by decide +kernel

/-! ## Proposals -/

theorem sizes_eq {B : Conf} {k : Nat} {elems : Nat → List Elem} (h : ∀ b, b < k → ∀ e, e ∈ elems b → (B.bucket? e.gain).isSome = true) :
    ∃ s, sizes? B k elems = some s ∧ ∀ b, b < k → ∀ i, i < B.num → s (b * B.num + i) = bucketWeight (bucketOf B) (elems b) i := by
  have hb : ∀ b, b < k → ∀ e, e ∈ elems b → B.bucket? e.gain = some (bucketOf B e) := by
    intro b hb e he
    obtain ⟨i, hi⟩ := Option.isSome_iff_exists.1 (h b hb e he)
    unfold bucketOf
    rw [hi]
    rfl
  have hlt : ∀ b, b < k → ∀ e, e ∈ elems b → bucketOf B e < B.num := by
    intro b hb' e he
    have hx := hb b hb' e he
    unfold Conf.bucket? at hx
    cases hq : B.index? e.gain with
    | none => rw [hq] at hx; cases hx
    | some m =>
      rw [hq, Option.bind_some] at hx
      by_cases hm : m < B.num
      · rw [if_pos hm] at hx; injection hx with hx; omega
      · rw [if_neg hm] at hx; cases hx
  refine ⟨_, sizes_fold (bk := bucketOf B) _ _ ?_, ?_⟩
  · intro y hy
    obtain ⟨b, hb1, hb2⟩ := List.mem_flatMap.1 hy
    obtain ⟨e, he, rfl⟩ := List.mem_map.1 hb2
    exact hb b (List.mem_range.1 hb1) e he
  · intro b hb' i hi
    show 0 + _ = _
    rw [Int.zero_add, idx_all hi k hlt, if_pos hb']

/-- **C85.** All processes know the same number of buckets for each block.  The nodes in these buckets have enough weight to remove the overload, or
these are all buckets; fewer buckets would not be enough.  A block that is not overloaded gets no bucket. -/
theorem C85_cutoffs {B : Conf} {N k : Nat} {bw maxw : Nat → Int} {elems : Nat → Nat → List Elem} (hN : 0 < N) (hv : Valid B N k elems) :
    ∃ cut, cutoffs? B N k bw maxw elems = some cut ∧ ∀ b, b < k →
      (maxw b < bw b → cut b ≤ B.num ∧ (bw b - maxw b ≤ better B N elems b (cut b) ∨ cut b = B.num) ∧ ∀ j, j < cut b → better B N elems b j < bw b - maxw b) ∧
      (bw b ≤ maxw b → cut b = 0) := by
  have hs : ∀ p, p < N → (sizes? B k (elems p)).map (compactify B bw maxw k) =
      some (table B.num (overloaded bw maxw k) fun b i => bucketWeight (bucketOf B) (elems p b) i) := by
    intro p hp
    obtain ⟨s, s1, s2⟩ := sizes_eq (B := B) (k := k) (elems := elems p) fun b hb e he => (hv p hp b hb e he).1
    rw [s1, Option.map_some]
    congr 1
    unfold compactify table
    have hmem : ∀ b, b ∈ overloaded bw maxw k → b < k := fun b hb => List.mem_range.1 (List.mem_filter.1 hb).1
    rw [List.flatMap_def, List.flatMap_def]
    congr 1
    exact List.map_congr_left fun b hb => List.map_congr_left fun i hi => s2 b (hmem b hb) i (List.mem_range.1 hi)
  obtain ⟨cut, c1, c2⟩ := root_fold (B := B) (bw := bw) (maxw := maxw)
    (f := fun b i => ((List.range N).map fun p => bucketWeight (bucketOf B) (elems p b) i).sum) k k (Nat.le_refl _)
  obtain ⟨g, g1, g2⟩ := expand_fold (bw := bw) (maxw := maxw) (cut := cut) k k (Nat.le_refl _)
  have hpre : ∀ b c, pre (fun i => ((List.range N).map fun p => bucketWeight (bucketOf B) (elems p b) i).sum) c = better B N elems b c := by
    intro b c
    rw [pre_sum (fun p i => bucketWeight (bucketOf B) (elems p b) i) c (List.range N)]
    unfold better
    congr 1
    exact List.map_congr_left fun p _ => pre_bucket _ _ c
  refine ⟨g, ?_, fun b hb => ⟨fun ho => ?_, fun ho => ?_⟩⟩
  · unfold cutoffs?
    rw [mapM_some (g := fun p => table B.num (overloaded bw maxw k) fun b i => bucketWeight (bucketOf B) (elems p b) i)
      fun p hp => hs p (List.mem_range.1 hp), Option.bind_some,
      reduce_eq (f := fun p b i => bucketWeight (bucketOf B) (elems p b) i) hN, Option.bind_some]
    unfold rootCutoffs? expand?
    rw [c2, Option.map_some, Option.bind_some, g2]
    rfl
  · have h := c1 b hb ho
    rw [g1 b hb, if_pos ho]
    refine ⟨h.le, ?_, fun j hj => ?_⟩
    · have := h.enough
      rw [hpre] at this
      exact this
    · have := h.needed j hj
      rw [hpre] at this
      exact this
  · rw [g1 b hb, if_neg (by omega)]

theorem sum_range_le {f g : Nat → Int} : ∀ N, (∀ p, p < N → f p ≤ g p) → ((List.range N).map f).sum ≤ ((List.range N).map g).sum
  | 0, _ => Int.le_refl _
  | N + 1, h => by
    have h1 := sum_range_le N fun p hp => h p (by omega)
    have h2 := h N (by omega)
    rw [List.range_succ, List.map_append, List.map_append, List.sum_append, List.sum_append]
    show _ + (f N + 0) ≤ _ + (g N + 0)
    omega

theorem sum_range_ge {f : Nat → Int} : ∀ N, (∀ p, p < N → 0 ≤ f p) → ∀ p, p < N → f p ≤ ((List.range N).map f).sum
  | 0, _, p, hp => by omega
  | N + 1, h, p, hp => by
    rw [List.range_succ, List.map_append, List.sum_append]
    show _ ≤ _ + (f N + 0)
    have hN := h N (by omega)
    by_cases he : p = N
    · subst he
      have : 0 ≤ ((List.range p).map f).sum := List.sum_nonneg fun x hx => by
        obtain ⟨q, hq, rfl⟩ := List.mem_map.1 hx
        exact h q (by have := List.mem_range.1 hq; omega)
      omega
    · have := sum_range_ge N (fun q hq => h q (by omega)) p (by omega)
      omega

/-- One of the numbers reaches `o`, or all are at least the others: then the sum reaches `o` or the sum of the others. -/
theorem sum_min {f g : Nat → Int} {o : Int} {N : Nat} (h0 : ∀ p, p < N → 0 ≤ f p) (h : ∀ p, p < N → o ≤ f p ∨ g p ≤ f p) :
    min o ((List.range N).map g).sum ≤ ((List.range N).map f).sum := by
  by_cases hex : ∃ p, p < N ∧ o ≤ f p
  · obtain ⟨p, hp, ho⟩ := hex
    have := sum_range_ge N h0 p hp
    exact Int.le_trans (Int.min_le_left _ _) (by omega)
  · have := sum_range_le N fun p hp => (h p hp).resolve_left fun ho => hex ⟨p, hp, ho⟩
    exact Int.le_trans (Int.min_le_right _ _) this

/-- **C85.** The candidates: each process proposes nodes of its queues.  Together they propose enough weight to remove the overload of each block, or all
nodes in the queues.  If a node is proposed, the nodes in better buckets are not enough; if a node is not proposed, then these are enough, or its own process
proposes enough.  Nothing is proposed for blocks that are not overloaded. -/
theorem C85_candidates {B : Conf} {N k : Nat} {bw maxw : Nat → Int} {all : Bool} {elems : Nat → Nat → List Elem} (hN : 0 < N) (hv : Valid B N k elems) :
    ∃ out, candidates? B N k bw maxw all elems = some out ∧ out.length = N ∧
      (∀ p, p < N → ((out.getD p []).length = k ∧ ∀ b, b < k → ((out.getD p []).getD b []).Sublist (elems p b) ∧
        (bw b ≤ maxw b → (out.getD p []).getD b [] = []) ∧
        (all = false → ∀ e, e ∈ (out.getD p []).getD b [] → better B N elems b (bucketOf B e) < bw b - maxw b) ∧
        ∀ e, e ∈ elems p b → e ∉ (out.getD p []).getD b [] →
          bw b - maxw b ≤ weightOf ((out.getD p []).getD b []) ∨ bw b - maxw b ≤ better B N elems b (bucketOf B e))) ∧
      ∀ b, b < k → maxw b < bw b → min (bw b - maxw b) (offered N elems b) ≤ proposed out b := by
  obtain ⟨cut, c1, c2⟩ := C85_cutoffs (bw := bw) (maxw := maxw) hN hv
  have hbk : ∀ p, p < N → ∀ b, b < k → ∀ e, e ∈ elems p b → B.bucket? e.gain = some (bucketOf B e) := by
    intro p hp b hb e he
    obtain ⟨i, hi⟩ := Option.isSome_iff_exists.1 (hv p hp b hb e he).1
    unfold bucketOf
    rw [hi]
    rfl
  have hlt : ∀ p, p < N → ∀ b, b < k → ∀ e, e ∈ elems p b → bucketOf B e < B.num := by
    intro p hp b hb' e he
    have hx := hbk p hp b hb' e he
    unfold Conf.bucket? at hx
    cases hq : B.index? e.gain with
    | none => rw [hq] at hx; cases hx
    | some m =>
      rw [hq, Option.bind_some] at hx
      by_cases hm : m < B.num
      · rw [if_pos hm] at hx; injection hx with hx; omega
      · rw [if_neg hm] at hx; cases hx
  have hsel := fun p (hp : p < N) b (hb : b < k) => select_ok (B := B) (all := all) (cutoff := cut b) (o := max 0 (bw b - maxw b)) (elems p b) 0
    (hbk p hp b hb) fun e he => (hv p hp b hb e he).2
  -- the proposals as a function
  obtain ⟨S, hS⟩ : ∃ S : Nat → Nat → List Elem, ∀ p, p < N → ∀ b, b < k →
      select? B all (cut b) (max 0 (bw b - maxw b)) (elems p b) 0 = some (S p b) ∧ (S p b).Sublist (elems p b) ∧
        (∀ e, e ∈ S p b → all = true ∨ bucketOf B e < cut b) ∧
        (max 0 (bw b - maxw b) ≤ 0 + weightOf (S p b) ∨ S p b = (elems p b).filter fun e => decide (all = true ∨ bucketOf B e < cut b)) := by
    refine ⟨fun p b => (select? B all (cut b) (max 0 (bw b - maxw b)) (elems p b) 0).getD [], fun p hp b hb => ?_⟩
    obtain ⟨out, h1, h2⟩ := hsel p hp b hb
    have e : (fun p b => (select? B all (cut b) (max 0 (bw b - maxw b)) (elems p b) 0).getD []) p b = out := by
      show (select? B all (cut b) (max 0 (bw b - maxw b)) (elems p b) 0).getD [] = out
      rw [h1]
      rfl
    rw [e]
    exact ⟨h1, h2⟩
  have hget : ∀ p, p < N → ((List.range N).map fun p => (List.range k).map (S p)).getD p [] = (List.range k).map (S p) := by
    intro p hp
    rw [List.getD_eq_getElem?_getD, List.getElem?_map, List.getElem?_range hp]
    rfl
  have hget2 : ∀ p b, b < k → ((List.range k).map (S p)).getD b [] = S p b := by
    intro p b hb
    rw [List.getD_eq_getElem?_getD, List.getElem?_map, List.getElem?_range hb]
    rfl
  refine ⟨(List.range N).map fun p => (List.range k).map (S p), ?_, by rw [List.length_map, List.length_range], ?_, ?_⟩
  · unfold candidates?
    rw [c1, Option.bind_some]
    exact mapM_some fun p hp => mapM_some fun b hb => (hS p (List.mem_range.1 hp) b (List.mem_range.1 hb)).1
  · intro p hp
    rw [hget p hp]
    refine ⟨by rw [List.length_map, List.length_range], fun b hb => ?_⟩
    rw [hget2 p b hb]
    obtain ⟨s1, s2, s3, s4⟩ := hS p hp b hb
    obtain ⟨d1, d2⟩ := c2 b hb
    have hempty : bw b ≤ maxw b → S p b = [] := by
      intro hle
      have : select? B all (cut b) (max 0 (bw b - maxw b)) (elems p b) 0 = some [] := by
        cases elems p b with
        | nil => rfl
        | cons e l =>
          unfold select?
          rw [if_pos (by omega)]
      rw [this] at s1
      injection s1 with s1
      exact s1.symm
    refine ⟨s2, hempty, ?_, ?_⟩
    · intro ha e he
      have hc := (s3 e he).resolve_left (by rw [ha]; decide)
      by_cases ho : maxw b < bw b
      · exact (d1 ho).2.2 _ hc
      · rw [d2 (by omega)] at hc
        omega
    · intro e he hne
      by_cases ho : maxw b < bw b
      · rcases s4 with s4 | s4
        · exact Or.inl (by omega)
        · refine Or.inr ?_
          have hnc : ¬ (all = true ∨ bucketOf B e < cut b) := by
            intro hc
            rw [s4] at hne
            exact hne (List.mem_filter.2 ⟨he, decide_eq_true hc⟩)
          have hle : cut b ≤ bucketOf B e := by
            by_contra hlt'
            exact hnc (Or.inr (by omega))
          have hnum := hlt p hp b hb e he
          have hcut := (d1 ho).2.1.resolve_right (by omega)
          refine Int.le_trans hcut ?_
          unfold better
          refine sum_range_le N fun q hq => ?_
          have hmono : ∀ l : List Elem, (∀ x, x ∈ l → 0 ≤ x.weight) →
              weightOf (l.filter fun x => decide (bucketOf B x < cut b)) ≤ weightOf (l.filter fun x => decide (bucketOf B x < bucketOf B e)) := by
            intro l
            induction l with
            | nil => intro _; exact Int.le_refl _
            | cons x l ih =>
              intro hx
              have h1 := ih fun y hy => hx y (List.mem_cons_of_mem _ hy)
              have h2 := hx x List.mem_cons_self
              by_cases g1 : bucketOf B x < cut b
              · rw [List.filter_cons_of_pos (by simpa using g1), List.filter_cons_of_pos (p := fun x => decide (bucketOf B x < bucketOf B e)) (by simp; omega),
                  weightOf_cons, weightOf_cons]
                omega
              · rw [List.filter_cons_of_neg (by simpa using g1)]
                by_cases g2 : bucketOf B x < bucketOf B e
                · rw [List.filter_cons_of_pos (by simpa using g2), weightOf_cons]
                  omega
                · rw [List.filter_cons_of_neg (by simpa using g2)]
                  exact h1
          exact hmono _ fun x hx => (hv q hq b hb x hx).2
      · have hbet : 0 ≤ better B N elems b (bucketOf B e) := List.sum_nonneg fun x hx => by
          obtain ⟨q, hq, rfl⟩ := List.mem_map.1 hx
          exact weightOf_nonneg fun y hy => (hv q (List.mem_range.1 hq) b hb y (List.mem_filter.1 hy).1).2
        exact Or.inr (by omega)
  · intro b hb ho
    obtain ⟨d1, d2, d3⟩ := (c2 b hb).1 ho
    have hprop : proposed ((List.range N).map fun p => (List.range k).map (S p)) b = ((List.range N).map fun p => weightOf (S p b)).sum := by
      unfold proposed
      rw [List.map_map]
      congr 1
      exact List.map_congr_left fun p _ => by
        show weightOf (((List.range k).map (S p)).getD b []) = _
        rw [hget2 p b hb]
    have hmin : min (bw b - maxw b) ((List.range N).map fun p => weightOf ((elems p b).filter fun e => decide (all = true ∨ bucketOf B e < cut b))).sum ≤
        ((List.range N).map fun p => weightOf (S p b)).sum := by
      refine sum_min (fun p hp => weightOf_nonneg fun e he => (hv p hp b hb e ((hS p hp b hb).2.1.subset he)).2) fun p hp => ?_
      rcases (hS p hp b hb).2.2.2 with h | h
      · exact Or.inl (by omega)
      · rw [h]
        exact Or.inr (Int.le_refl _)
    have hall : (∀ p, p < N → ((elems p b).filter fun e => decide (all = true ∨ bucketOf B e < cut b)) = elems p b) →
        ((List.range N).map fun p => weightOf ((elems p b).filter fun e => decide (all = true ∨ bucketOf B e < cut b))).sum = offered N elems b := by
      intro h
      unfold offered
      congr 1
      exact List.map_congr_left fun p hp => by rw [h p (List.mem_range.1 hp)]
    rw [hprop]
    by_cases hcase : all = true ∨ cut b = B.num
    · have := hall fun p hp => List.filter_eq_self.2 fun e he => by
        refine decide_eq_true ?_
        rcases hcase with h | h
        · exact Or.inl h
        · exact Or.inr (by rw [h]; exact hlt p hp b hb e he)
      rw [this] at hmin
      exact hmin
    · have ha : ¬ all = true := fun h => hcase (Or.inl h)
      have hcut := d2.resolve_right fun h => hcase (Or.inr h)
      have he : ((List.range N).map fun p => weightOf ((elems p b).filter fun e => decide (all = true ∨ bucketOf B e < cut b))).sum =
          better B N elems b (cut b) := by
        unfold better
        congr 1
        refine List.map_congr_left fun p _ => ?_
        congr 1
        refine List.filter_congr fun e _ => ?_
        by_cases h : bucketOf B e < cut b
        · rw [decide_eq_true h, decide_eq_true (Or.inr h)]
        · rw [decide_eq_false h, decide_eq_false (by rintro (h' | h'); exact ha h'; exact h h')]
      rw [he] at hmin
      have : bw b - maxw b ≤ min (bw b - maxw b) (better B N elems b (cut b)) := by omega
      exact Int.le_trans (Int.min_le_left _ _) (Int.le_trans this hmin)

/-- Two processes, two blocks; block 0 has overload 5.  The first process proposes its best node; the second one its best node. -/
example : candidates? (baseTwo true) 2 2 (fun b => if b = 0 then 15 else 8) (fun _ => 10) false
    (fun p b => if b = 0 then (if p = 0 then [⟨0, 3, -100⟩, ⟨1, 3, 2⟩] else [⟨2, 3, 0⟩, ⟨3, 3, -7⟩]) else []) =
    some [[[⟨1, 3, 2⟩], []], [[⟨2, 3, 0⟩], []]] := by decide +kernel

/-- **C85.** If the queues of an overloaded block have been filled with its nodes, then the processes propose enough weight to remove the overload, or
the weight of all these nodes. -/
theorem C85_removes_overload {B : Conf} {N k : Nat} {bw maxw : Nat → Int} {all : Bool} {elems : Nat → Nat → List Elem} (hN : 0 < N)
    (hv : Valid B N k elems) {b : Nat} (hb : b < k) (ho : maxw b < bw b) {pick : Nat → List Elem → Nat} {order : Nat → List Elem → List Elem}
    (hp : ∀ p, p < N → PicksMin (pick p)) (horder : ∀ p, p < N → ∀ l, (order p l).Perm l) {threads : Nat → List (List Elem)}
    (hw : ∀ p, p < N → ∀ e, e ∈ (threads p).flatten → 0 ≤ e.weight)
    (hq : ∀ p, p < N → ∃ q w, fillQueue? (pick p) (order p) (bw b - maxw b) (threads p) = some (q, w) ∧ (elems p b).Perm q) :
    ∃ out, candidates? B N k bw maxw all elems = some out ∧
      min (bw b - maxw b) ((List.range N).map fun p => weightOf (threads p).flatten).sum ≤ proposed out b := by
  obtain ⟨out, o1, _, _, o4⟩ := C85_candidates (bw := bw) (maxw := maxw) (all := all) hN hv
  refine ⟨out, o1, Int.le_trans ?_ (o4 b hb ho)⟩
  have : min (bw b - maxw b) ((List.range N).map fun p => weightOf (threads p).flatten).sum ≤ offered N elems b := by
    refine sum_min (fun p hp' => weightOf_nonneg fun e he => (hv p hp' b hb e he).2) fun p hp' => ?_
    obtain ⟨q, w, q1, q2⟩ := hq p hp'
    obtain ⟨q', d, f1, f2, f3, _⟩ := C85_queue (hp p hp') (horder p hp') (o := bw b - maxw b) (by omega) (hw p hp')
    rw [f1] at q1
    injection q1 with q1
    have hqq : q' = q := congrArg Prod.fst q1
    subst hqq
    rw [weightOf_perm q2]
    rcases f3 with f3 | f3
    · subst f3
      rw [List.append_nil] at f2
      rw [weightOf_perm f2]
      exact Or.inr (Int.le_refl _)
    · exact Or.inl f3
  omega

/-- One process with the queue of the first example: the proposals weigh at least 5. -/
example : ∃ out, candidates? (baseTwo true) 1 1 (fun _ => 15) (fun _ => 10) false (fun _ _ => [⟨3, 3, 0⟩, ⟨1, 3, 2⟩]) = some out ∧
    min (15 - 10) ((List.range 1).map fun _ => weightOf [[⟨0, 3, -4⟩, ⟨1, 3, 2⟩], [⟨2, 1, -9⟩, ⟨3, 3, 0⟩]].flatten).sum ≤ proposed out 0 :=
  C85_removes_overload (pick := fun _ => firstMin) (order := fun _ => id) (threads := fun _ => [[⟨0, 3, -4⟩, ⟨1, 3, 2⟩], [⟨2, 1, -9⟩, ⟨3, 3, 0⟩]])
    (bw := fun _ => 15) (maxw := fun _ => 10) (b := 0) (by decide)
    (fun p _ b _ e he => by
      rcases List.mem_cons.1 he with rfl | he
      · decide +kernel
      · rw [List.mem_singleton] at he
        subst he
        decide +kernel) (by decide) (by decide) (fun _ _ => firstMin_ok) (fun _ _ l => List.Perm.refl l)
    (fun p _ e he => by
      have : ∀ e, e ∈ [(⟨0, 3, -4⟩ : Elem), ⟨1, 3, 2⟩, ⟨2, 1, -9⟩, ⟨3, 3, 0⟩] → 0 ≤ e.weight := by decide
      exact this e he)
    fun p _ => ⟨[⟨3, 3, 0⟩, ⟨1, 3, 2⟩], 6, by decide +kernel, List.Perm.refl _⟩

end Verif.NodeBalancer.Sel
