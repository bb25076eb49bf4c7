import Mathlib.Tactic.Linarith
import Mathlib.Tactic.Ring
import Verif.ClusterBalancer.Cutoff
import Verif.NodeBalancer.BucketsLemmas

/-!
# C93: cut-off buckets of the cluster balancer

The best clusters of an overloaded block are candidates, just as many buckets as it takes to remove the current fraction of the overload.
-/

namespace Verif.ClusterBalancer
open Verif
open Verif.NodeBalancer.Sel (cutoffLoop? table table_get pre cutoff_loop overloaded)

/-! ## What is expected -/

/-- The weight in the first `c` buckets of a block. -/
def firstBuckets (f : Nat → Nat → Int) (b c : Nat) : Int := ((List.range c).map (f b)).sum

/-- The array with the weights of the buckets of the overloaded blocks, `f b i` for block `b` and bucket `i`. -/
def bucketArray (I : CutIn) (f : Nat → Nat → Int) : List Int :=
  ((List.range I.k).filter fun b => decide (I.maxw b < I.bw b)).flatMap fun b => (List.range I.num).map (f b)

/-- A fraction of at most 1, and weights that are not negative. -/
structure CutIn.Ok (I : CutIn) : Prop where
  q : 0 < I.q
  p : I.p ≤ I.q
  bw : ∀ b, b < I.k → 0 ≤ I.bw b
  maxw : ∀ b, b < I.k → 0 ≤ I.maxw b

/-! ## Proofs -/

theorem pre_eq (F : Nat → Int) : ∀ c, pre F c = ((List.range c).map F).sum
  | 0 => rfl
  | c + 1 => by rw [List.range_succ, List.map_append, List.sum_append, ← pre_eq F c]; simp [pre]

/-- At most the fake limit remains if and only if the fraction of the overload is removed. -/
theorem fake_iff {p q : Nat} {maxw cur : Int} (hq : 0 < q) (hp : p ≤ q) (hc : 0 ≤ cur) (hm : 0 ≤ maxw) (w : Int) :
    cur - w ≤ fakeLimit p q maxw cur ↔ (p : Int) * (cur - maxw) ≤ q * w := by
  have e : maxw * q + ((q : Int) - p) * (cur - maxw) = ((q : Int) - p) * cur + p * maxw := by ring
  have h1 : 0 ≤ ((q : Int) - p) * cur := Int.mul_nonneg (by omega) hc
  have h2 : 0 ≤ (p : Int) * maxw := Int.mul_nonneg (by omega) hm
  unfold fakeLimit
  rw [Int.tdiv_eq_ediv_of_nonneg (by omega), Int.le_ediv_iff_mul_le (by omega)]
  constructor
  · intro h; nlinarith
  · intro h; nlinarith

theorem fake_lt {p q : Nat} {maxw cur : Int} (hq : 0 < q) (hp : p ≤ q) (hc : 0 ≤ cur) (hm : 0 ≤ maxw) (h0 : 0 < p) :
    fakeLimit p q maxw cur < cur ↔ maxw < cur := by
  have := fake_iff hq hp hc hm 0
  rw [Int.sub_zero, Int.mul_zero] at this
  have hp' : (0 : Int) < p := by omega
  constructor
  · intro h
    by_contra hn
    have : (p : Int) * (cur - maxw) ≤ 0 := Int.mul_nonpos_of_nonneg_of_nonpos (by omega) (by omega)
    omega
  · intro h
    have : 0 < (p : Int) * (cur - maxw) := Int.mul_pos hp' (by omega)
    omega

/-- The overloaded blocks before `m`. -/
def overBefore (I : CutIn) (m : Nat) : List Nat := (List.range m).filter fun b => decide (I.maxw b < I.bw b)

theorem overBefore_succ (I : CutIn) (m : Nat) : overBefore I (m + 1) = overBefore I m ++ if I.maxw m < I.bw m then [m] else [] := by
  unfold overBefore
  rw [List.range_succ, List.filter_append]
  congr 1
  by_cases h : I.maxw m < I.bw m
  · rw [List.filter_cons_of_pos (by simpa using h), if_pos h]; rfl
  · rw [List.filter_cons_of_neg (by simpa using h), if_neg h]; rfl

theorem overBefore_split (I : CutIn) {m : Nat} (hm : m < I.k) (h : I.maxw m < I.bw m) : ∃ R, overBefore I I.k = overBefore I m ++ m :: R := by
  have key : ∀ n, ∃ R, overBefore I (m + 1 + n) = overBefore I m ++ m :: R := by
    intro n
    induction n with
    | zero => exact ⟨[], by rw [Nat.add_zero, overBefore_succ, if_pos h]⟩
    | succ n ih =>
      obtain ⟨R, hR⟩ := ih
      exact ⟨R ++ if I.maxw (m + 1 + n) < I.bw (m + 1 + n) then [m + 1 + n] else [], by
        rw [← Nat.add_assoc, overBefore_succ, hR, List.append_assoc, List.cons_append]⟩
  obtain ⟨R, hR⟩ := key (I.k - (m + 1))
  exact ⟨R, by rw [← hR]; congr 1; omega⟩

/-- **C93.**  If the fraction is positive, there is no access outside of an array.  For an overloaded block there are enough buckets: their clusters
have at least the fraction of the overload as their weight, or these are all buckets; fewer buckets would not be enough; and exactly the clusters in
these buckets are candidates.  Clusters of other blocks are not.  What is missing is the rounding of floating point numbers. -/
theorem C93_cutoffs_partial {I : CutIn} (hI : I.Ok) (h0 : 0 < I.p) (f : Nat → Nat → Int) :
    ∃ s, cutoffs? I (bucketArray I f) = some s ∧ ∀ b, b < I.k →
      (I.maxw b < I.bw b → ∃ c, c ≤ I.num ∧ (I.p * (I.bw b - I.maxw b) ≤ I.q * firstBuckets f b c ∨ c = I.num) ∧
        (∀ j, j < c → I.q * firstBuckets f b j < I.p * (I.bw b - I.maxw b)) ∧ ∀ i, belowCut? I s b i = some (decide (i < c))) ∧
      (I.bw b ≤ I.maxw b → ∀ i, belowCut? I s b i = some false) := by
  have key : ∀ m, m ≤ I.k → ∃ s, (List.range m).foldlM (cutStep? I (bucketArray I f)) ⟨0, fun _ => 0, fun _ => 0⟩ = some s ∧
      s.cur = (overBefore I m).length ∧ ∀ b, b < m → I.maxw b < I.bw b → s.idx b < s.cur ∧ s.cuts (s.idx b) ≤ I.num ∧
        (I.p * (I.bw b - I.maxw b) ≤ I.q * firstBuckets f b (s.cuts (s.idx b)) ∨ s.cuts (s.idx b) = I.num) ∧
        ∀ j, j < s.cuts (s.idx b) → I.q * firstBuckets f b j < I.p * (I.bw b - I.maxw b) := by
    intro m
    induction m with
    | zero => exact fun _ => ⟨_, rfl, rfl, fun b hb => by omega⟩
    | succ m ih =>
      intro hm
      obtain ⟨s, h1, h2, h3⟩ := ih (by omega)
      have hbw := hI.bw m (by omega)
      have hmw := hI.maxw m (by omega)
      have hlt := fake_lt hI.q hI.p hbw hmw h0
      rw [List.range_succ, List.foldlM_append, h1]
      by_cases ho : I.maxw m < I.bw m
      · obtain ⟨R, hR⟩ := overBefore_split I (by omega : m < I.k) ho
        obtain ⟨r, r1, r2, r3, r4⟩ := cutoff_loop (arr := bucketArray I f) (base := s.cur * I.num) (num := I.num)
          (maxw := fakeLimit I.p I.q (I.maxw m) (I.bw m)) (bw := I.bw m) (F := f m) (fun i hi => by
            have e : bucketArray I f = table I.num (overBefore I I.k) f := rfl
            rw [e, hR, h2]
            exact table_get hi) I.num 0 (by omega) (fun j hj => by omega)
        have r1' : cutoffLoop? (bucketArray I f) (s.cur * I.num) (fakeLimit I.p I.q (I.maxw m) (I.bw m)) I.num 0 (I.bw m) = some r := by
          rw [← r1]
          congr 1
          show _ = _ - 0
          omega
        have hcur : s.cur < I.numOver := by
          have : I.numOver = (overBefore I I.k).length := rfl
          rw [this, hR, h2, List.length_append, List.length_cons]
          omega
        have hst : cutStep? I (bucketArray I f) s m = some ⟨s.cur + 1, upd s.cuts s.cur r, upd s.idx m s.cur⟩ := by
          unfold cutStep?
          rw [if_pos (hlt.2 ho), r1', Option.bind_some, if_pos hcur]
        refine ⟨⟨s.cur + 1, upd s.cuts s.cur r, upd s.idx m s.cur⟩, ?_, ?_, fun b hb hbo => ?_⟩
        · show cutStep? I (bucketArray I f) s m >>= (fun s => some s) = _
          rw [hst]
          rfl
        · show s.cur + 1 = _
          rw [overBefore_succ, if_pos ho, List.length_append, h2]
          rfl
        · dsimp only
          by_cases he : b = m
          · subst he
            rw [upd_same, upd_same]
            refine ⟨by omega, r2, ?_, fun j hj => ?_⟩
            · rcases r3 with h | h
              · refine .inl ?_
                rw [pre_eq] at h
                exact (fake_iff hI.q hI.p hbw hmw _).1 h
              · exact .inr h
            · have h := r4 j hj
              rw [pre_eq] at h
              have h' := fake_iff hI.q hI.p hbw hmw ((List.range j).map (f b)).sum
              show (I.q : Int) * ((List.range j).map (f b)).sum < _
              omega
          · obtain ⟨q1, q2, q3, q4⟩ := h3 b (by omega) hbo
            rw [upd_ne _ _ he, upd_ne _ _ (by omega : s.idx b ≠ s.cur)]
            exact ⟨by omega, q2, q3, q4⟩
      · refine ⟨s, ?_, ?_, fun b hb hbo => ?_⟩
        · show cutStep? I (bucketArray I f) s m >>= (fun s => some s) = _
          unfold cutStep?
          rw [if_neg (fun h => ho (hlt.1 h))]
          rfl
        · rw [overBefore_succ, if_neg ho, List.append_nil]
          exact h2
        · by_cases he : b = m
          · subst he; exact absurd hbo ho
          · exact h3 b (by omega) hbo
  obtain ⟨s, h1, hcur, h3⟩ := key I.k (Nat.le_refl _)
  refine ⟨s, h1, fun b hb => ⟨fun ho => ?_, fun ho i => ?_⟩⟩
  · obtain ⟨q1, q2, q3, q4⟩ := h3 b hb ho
    refine ⟨s.cuts (s.idx b), q2, q3, q4, fun i => ?_⟩
    have : I.numOver = (overBefore I I.k).length := rfl
    unfold belowCut?
    rw [if_pos ho, if_pos (by omega)]
  · unfold belowCut?
    rw [if_neg (by omega)]

/-- **C93, fraction 0.**  If the fraction is 0, no cluster is a candidate, whatever the overload. -/
theorem C93_zero {I : CutIn} (hI : I.Ok) (h0 : I.p = 0) (arr : List Int) :
    ∃ s, cutoffs? I arr = some s ∧ ∀ b, b < I.k → ∀ i, belowCut? I s b i = some false := by
  have key : ∀ m, m ≤ I.k → (List.range m).foldlM (cutStep? I arr) ⟨0, fun _ => 0, fun _ => 0⟩ = some ⟨0, fun _ => 0, fun _ => 0⟩ := by
    intro m
    induction m with
    | zero => exact fun _ => rfl
    | succ m ih =>
      intro hm
      rw [List.range_succ, List.foldlM_append, ih (by omega)]
      have h := (fake_iff hI.q hI.p (hI.bw m (by omega)) (hI.maxw m (by omega)) 0).2 (by rw [h0]; simp)
      rw [Int.sub_zero] at h
      show cutStep? I arr _ m >>= (fun s => some s) = _
      unfold cutStep?
      rw [if_neg (by omega)]
      rfl
  refine ⟨_, key I.k (Nat.le_refl _), fun b hb i => ?_⟩
  unfold belowCut?
  by_cases ho : I.maxw b < I.bw b
  · have hn : 0 < I.numOver := List.length_pos_of_mem (List.mem_filter.2 ⟨List.mem_range.2 hb, decide_eq_true ho⟩)
    rw [if_pos ho, if_pos hn]
    simp
  · rw [if_neg ho]

/-- **C93, the fraction of later rounds.**  With a positive increase, the fraction is 1 after finitely many rounds and stays 1. -/
theorem C93_fraction {q d : Nat} (hd : 0 < d) (p : Nat) (hp : p ≤ q) : ∀ n, q ≤ n → (fun p => nextFraction p q d)^[n] p = q := by
  have key : ∀ n p, p ≤ q → q ≤ p + n → (fun p => nextFraction p q d)^[n] p = q := by
    intro n
    induction n with
    | zero => intro p h1 h2; show p = q; omega
    | succ n ih =>
      intro p h1 h2
      show (fun p => nextFraction p q d)^[n] (nextFraction p q d) = q
      unfold nextFraction at ih ⊢
      exact ih _ (by omega) (by omega)
  exact fun n hn => key n p hp (by omega)

/-! ## A concrete case -/

namespace CutoffExample

/-- Block 1 has an overload of 10, and half of it should be removed. -/
def I : CutIn := ⟨1, 2, 2, 3, fun b => if b = 1 then 20 else 5, fun _ => 10⟩

/-- The weights 3, 4 and 6 in the buckets of block 1. -/
def f : Nat → Nat → Int := fun b i => if b = 1 then if i = 0 then 3 else if i = 1 then 4 else 6 else 0

example : I.Ok := ⟨by decide, by decide, by decide, by decide⟩

/-- Two buckets are enough. -/
example : (cutoffs? I (bucketArray I f)).map (fun s => (List.range 3).map (belowCut? I s 1)) = some [some true, some true, some false] := by decide +kernel

/-- Without the fraction all three would be needed. -/
example : (cutoffs? { I with p := 2 } (bucketArray I f)).map (fun s => (List.range 3).map (belowCut? I s 1)) = some [some true, some true, some true] := by decide +kernel

/-- With fraction 0 there is no candidate. -/
example : (cutoffs? { I with p := 0 } (bucketArray I f)).map (fun s => (List.range 3).map (belowCut? I s 1)) = some [some false, some false, some false] := by
  decide +kernel

example : (fun p => nextFraction p 10 3)^[10] 1 = 10 := by decide +kernel

end CutoffExample

end Verif.ClusterBalancer
