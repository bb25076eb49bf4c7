import Verif.FlatBip.Spec
import Verif.InitialFM.Lemmas

/-! Lemmas: block weights while nodes are assigned, the random bipartition and greedy graph growing. -/

namespace Verif.FlatBip
open Finset
open Verif.InitialFM

/-- The nodes in `A` are assigned, and the weights of the blocks are exact for them. -/
structure Acc (g : Graph) (A : Nat → Bool) (s : Bip) : Prop where
  lt : ∀ u, u < g.n → A u = true → s.part u < 2
  bw : ∀ b, b < 2 → s.bw b = ∑ u ∈ range g.n, if A u = true ∧ s.part u = b then g.w u else 0

theorem Acc.set {g : Graph} {A : Nat → Bool} {s : Bip} (h : Acc g A s) {u b : Nat} (hu : u < g.n) (hA : A u = false)
    (hb : b < 2) : Acc g (upd A u true) (FlatBip.setBlock g s u b) := by
  constructor
  · intro v hv hAv
    unfold FlatBip.setBlock
    by_cases huv : v = u
    · subst huv; simpa using hb
    · show upd s.part u b v < 2
      rw [upd_ne _ _ huv]
      rw [upd_ne _ _ huv] at hAv
      exact h.lt v hv hAv
  · intro b' hb'
    have key := sum_upd (range g.n) (fun i (x : Bool × Nat) => if x.1 = true ∧ x.2 = b' then g.w i else 0)
      (fun i => (A i, s.part i)) (mem_range.2 hu) (true, b)
    have h2 : ∀ i, (upd A u true i, upd s.part u b i) = upd (fun i => (A i, s.part i)) u (true, b) i := by
      intro i
      by_cases hi : i = u
      · subst hi; simp
      · simp only [upd_ne _ _ hi]
    show upd s.bw b (s.bw b + g.w u) b' = ∑ i ∈ range g.n, if upd A u true i = true ∧ upd s.part u b i = b' then g.w i else 0
    have h3 : (∑ i ∈ range g.n, if upd A u true i = true ∧ upd s.part u b i = b' then g.w i else 0) =
        ∑ i ∈ range g.n, (fun i (x : Bool × Nat) => if x.1 = true ∧ x.2 = b' then g.w i else 0) i
          (upd (fun i => (A i, s.part i)) u (true, b) i) := by
      apply sum_congr rfl
      intro i _
      rw [← h2]
    rw [h3, key]
    simp only [hA, Bool.false_eq_true, false_and, if_false, true_and]
    rw [← h.bw b' hb']
    by_cases hbb : b' = b
    · subst hbb; rw [upd_same, if_pos rfl]; ring
    · rw [upd_ne _ _ hbb, if_neg (Ne.symm hbb)]; ring

theorem Acc.total {g : Graph} {A : Nat → Bool} {s : Bip} (h : Acc g A s) :
    s.bw 0 + s.bw 1 = ∑ u ∈ range g.n, if A u = true then g.w u else 0 := by
  rw [h.bw 0 (by omega), h.bw 1 (by omega), ← sum_add_distrib]
  apply sum_congr rfl
  intro u hu
  by_cases hA : A u = true
  · have := h.lt u (mem_range.1 hu) hA
    simp only [hA, true_and, if_true]
    rcases (by omega : s.part u = 0 ∨ s.part u = 1) with h0 | h0 <;> simp [h0]
  · simp [hA]

theorem Acc.start (g : Graph) {s : Bip} (h0 : s.bw 0 = 0) (h1 : s.bw 1 = 0) : Acc g (fun _ => false) s := by
  refine ⟨fun u _ h => by simp at h, fun b hb => ?_⟩
  rcases (by omega : b = 0 ∨ b = 1) with rfl | rfl <;> simp [h0, h1]

theorem Acc.bip {g : Graph} {A : Nat → Bool} {s : Bip} (h : Acc g A s) (hA : ∀ u, u < g.n → A u = true) :
    Bipartition g s.part s.bw := by
  have hb : ∀ b, b < 2 → s.bw b = blockW g s.part b := by
    intro b hb
    rw [h.bw b hb]
    apply sum_congr rfl
    intro u hu
    simp [hA u (mem_range.1 hu)]
  exact ⟨fun u hu => h.lt u hu (hA u hu), hb 0 (by omega), hb 1 (by omega)⟩

/-- The weight of the assigned nodes and one more. -/
theorem assigned_le {g : Graph} (hw : ∀ u, u < g.n → 0 ≤ g.w u) {A : Nat → Bool} {u : Nat} (hu : u < g.n) (hA : A u = false) :
    (∑ v ∈ range g.n, if A v = true then g.w v else 0) + g.w u ≤ FlatBip.total g := by
  unfold FlatBip.total
  have key := sum_upd (range g.n) (fun i (x : Bool) => if x = true then g.w i else 0) A (mem_range.2 hu) true
  simp only [hA, Bool.false_eq_true, if_false, if_true] at key
  have : (∑ v ∈ range g.n, if upd A u true v = true then g.w v else 0) ≤ ∑ v ∈ range g.n, g.w v := by
    apply sum_le_sum
    intro v hv
    have := hw v (mem_range.1 hv)
    split <;> omega
  omega

/-! ## Random -/

theorem random_step {c : Cfg} {coin : Nat → Bool} {s : Bip} {A : Nat → Bool} (h : Acc c.g A s) {u : Nat} (hu : u < c.g.n)
    (hA : A u = false) : Acc c.g (upd A u true) (randomStep c coin s u) := by
  have hb : ∀ (P : Prop) [Decidable P] (x y : Nat), x < 2 → y < 2 → (if P then x else y) < 2 := by
    intro P _ x y hx hy; split <;> assumption
  unfold randomStep addToSmaller
  simp only
  by_cases h1 : s.bw (if coin u = true then 1 else 0) + c.g.w u < c.perfect (if coin u = true then 1 else 0)
  · rw [if_pos h1]; exact h.set hu hA (hb _ _ _ (by omega) (by omega))
  · rw [if_neg h1]; exact h.set hu hA (hb _ _ _ (by omega) (by omega))

theorem upd_lt_succ {n : Nat} : upd (fun u => decide (u < n)) n true = fun u => decide (u < n + 1) := by
  funext u
  by_cases h : u = n
  · subst h; simp
  · rw [upd_ne _ _ h]; simp only [decide_eq_decide]; omega

theorem random_acc {c : Cfg} {coin : Nat → Bool} {s : Bip} (h : Acc c.g (fun _ => false) s) : ∀ n, n ≤ c.g.n →
    Acc c.g (fun u => decide (u < n)) ((List.range n).foldl (randomStep c coin) s)
  | 0, _ => by simpa using h
  | n + 1, hn => by
    rw [List.range_succ, List.foldl_append, ← upd_lt_succ]
    exact random_step (random_acc h n (by omega)) (by omega) (by simp)

theorem random_balance {c : Cfg} {coin : Nat → Bool} {s : Bip} (h : Acc c.g (fun _ => false) s) {M : Int}
    (hw : ∀ u, u < c.g.n → 0 ≤ c.g.w u ∧ c.g.w u ≤ M) (hM : 0 ≤ M) (h0 : ∀ b, b < 2 → 0 ≤ c.perfect b)
    (hs : ∀ b, b < 2 → s.bw b = 0)
    (ht : FlatBip.total c.g ≤ c.perfect 0 + c.perfect 1) : ∀ n, n ≤ c.g.n → ∀ b, b < 2 →
    2 * (((List.range n).foldl (randomStep c coin) s).bw b - c.perfect b) ≤ M
  | 0, _ => by
    intro b hb
    have := h0 b hb; have := hs b hb
    simp only [List.range_zero, List.foldl_nil]
    omega
  | n + 1, hn => by
    have ih := random_balance (coin := coin) h hw hM h0 hs ht n (by omega)
    have ha := random_acc (coin := coin) h n (by omega)
    have hsum := ha.total
    have hle := assigned_le (g := c.g) (A := fun u => decide (u < n)) (u := n) (fun u hu => (hw u hu).1) (by omega) (by simp)
    rw [List.range_succ, List.foldl_append]
    simp only [List.foldl_cons, List.foldl_nil]
    generalize (List.range n).foldl (randomStep c coin) s = s' at *
    have hwn := hw n (by omega)
    have i0 := ih 0 (by omega); have i1 := ih 1 (by omega)
    have hset : ∀ b b', (FlatBip.setBlock c.g s' n b).bw b' = if b' = b then s'.bw b + c.g.w n else s'.bw b' := fun _ _ => rfl
    unfold randomStep addToSmaller
    simp only
    generalize hcc : (if coin n = true then 1 else 0) = b
    have hb : b < 2 := by rw [← hcc]; split <;> omega
    split
    · intro b' hb'
      rw [hset]
      split
      · rename_i h5; subst h5; omega
      · exact ih b' hb'
    · split
      · intro b' hb'
        rw [hset]
        split
        · rename_i h5; subst h5; omega
        · exact ih b' hb'
      · intro b' hb'
        rw [hset]
        split
        · rename_i h5; subst h5; omega
        · exact ih b' hb'

/-! ## Greedy graph growing -/

theorem firstUnmarked_lt {n : Nat} {marked : Nat → Bool} (h : firstUnmarked n marked < n) :
    marked (firstUnmarked n marked) = false := by
  unfold firstUnmarked at *
  cases hf : (List.range n).find? fun u => !marked u with
  | none => rw [hf] at h; simp at h
  | some u =>
    have := List.find?_some hf
    simpa using this

theorem firstUnmarked_le {n : Nat} {marked : Nat → Bool} {u : Nat} (hu : u < n) (h : marked u = false) : firstUnmarked n marked ≤ u := by
  unfold firstUnmarked
  cases hf : (List.range n).find? fun u => !marked u with
  | none =>
    have := List.find?_eq_none.1 hf u (List.mem_range.2 hu)
    simp [h] at this
  | some v =>
    rw [List.find?_range_eq_some] at hf
    by_contra hlt
    have := hf.2.2 u (by simpa using hlt)
    simp [h] at this

theorem firstUnmarked_all {n : Nat} {marked : Nat → Bool} (h : ¬ firstUnmarked n marked < n) {u : Nat} (hu : u < n) :
    marked u = true := by
  by_contra hm
  have := firstUnmarked_le hu (by simpa using hm)
  omega

theorem gggStart_unmarked {n : Nat} {marked : Nat → Bool} {draw : Nat → Nat} (hd : ∀ j, draw j < n) :
    (gggStart n marked draw < n → marked (gggStart n marked draw) = false) ∧
    (¬ gggStart n marked draw < n → ∀ u, u < n → marked u = true) := by
  unfold gggStart
  cases hf : ((List.range 5).map draw).find? fun u => !marked u with
  | none => exact ⟨firstUnmarked_lt, fun h u hu => firstUnmarked_all h hu⟩
  | some u =>
    have h1 := List.find?_some hf
    have h2 := List.mem_of_find?_eq_some hf
    obtain ⟨j, _, rfl⟩ := List.mem_map.1 h2
    exact ⟨fun _ => by simpa using h1, fun h => absurd (hd j) h⟩

theorem change_ok {g : Graph} {s : Bip} (h : Bipartition g s.part s.bw) {u : Nat} (hu : u < g.n) (h0 : s.part u = 0) :
    Bipartition g (changeBlock g s u 1).part (changeBlock g s u 1).bw ∧ (changeBlock g s u 1).bw 1 = s.bw 1 + g.w u := by
  have hp : (changeBlock g s u 1).part = upd s.part u 1 := rfl
  have h1 : (changeBlock g s u 1).bw 1 = s.bw 1 + g.w u := rfl
  have h2 : (changeBlock g s u 1).bw 0 = s.bw 0 - g.w u := rfl
  have key := fun b => sum_upd (range g.n) (fun i (x : Nat) => if x = b then g.w i else 0) s.part (mem_range.2 hu) 1
  refine ⟨⟨?_, ?_, ?_⟩, h1⟩
  · intro v hv
    rw [hp]
    by_cases hvu : v = u
    · subst hvu; simp
    · rw [upd_ne _ _ hvu]; exact h.lt v hv
  · rw [hp, h2, h.bw0]
    have := key 0
    unfold blockW
    simp only [h0, if_true, one_ne_zero, if_false] at this
    omega
  · rw [hp, h1, h.bw1]
    have := key 1
    unfold blockW
    simp only [h0, if_true, zero_ne_one, if_false] at this
    omega

theorem gggVisit_fold {g : Graph} {u : Nat} : ∀ (l : List (Nat × Int)) (s : GGG), s.s.part u = 1 →
    l.foldlM (gggVisit? g u) s = some s
  | [], _, _ => rfl
  | e :: l, s, h => by
    rw [List.foldlM_cons]
    have : gggVisit? g u s e = some s := by unfold gggVisit?; rw [if_pos h]
    rw [this]
    exact gggVisit_fold l s h

theorem gggGrow_single {c : Cfg} {tie fuel : Nat} {s : GGG} {u : Nat} {key : Int} (hu : u < c.g.n)
    (hq : s.queue = upd (fun _ => none) u (some key)) :
    gggGrow? c tie (fuel + 2) s = some { s with queue := fun _ => none, s := changeBlock c.g s.s u 1 } := by
  have hne : isEmpty c s.queue = false := isEmpty_false.2 ⟨u, hu, key, by rw [hq, upd_same]⟩
  obtain ⟨v, x, h1, h2, h3, _⟩ := peek_some hne tie
  have hv : v = u := by
    by_contra h
    rw [hq, upd_ne _ _ h] at h3; simp at h3
  subst hv
  have hq' : upd s.queue v none = fun _ => none := by
    rw [hq]; funext w
    by_cases h : w = v
    · subst h; simp
    · rw [upd_ne _ _ h, upd_ne _ _ h]
  unfold gggGrow?
  rw [hne, if_neg (by simp), h1]
  simp only [Option.bind_eq_bind, Option.bind_some, hq']
  split
  · rfl
  · rw [gggVisit_fold _ _ (by show upd s.s.part v 1 v = 1; simp)]
    simp only [Option.bind_some]
    unfold gggGrow?
    rw [if_pos (isEmpty_true.2 fun _ _ => rfl)]

/-- Marked nodes are in the second block, the others in the first one. -/
structure GInv (c : Cfg) (s : GGG) : Prop where
  bip : Bipartition c.g s.s.part s.s.bw
  part : ∀ u, u < c.g.n → (s.marked u = true ↔ s.s.part u = 1)
  queue : s.queue = fun _ => none

/-- What greedy graph growing computes: the second block reaches its perfectly balanced weight or has all nodes, and its last
node was needed. -/
structure Grown (c : Cfg) (s : Bip) : Prop where
  bip : Bipartition c.g s.part s.bw
  full : c.perfect 1 ≤ s.bw 1 ∨ ∀ u, u < c.g.n → s.part u = 1
  last : 0 < c.perfect 1 → ∃ u, u < c.g.n ∧ s.part u = 1 ∧ s.bw 1 - c.g.w u < c.perfect 1

/-- The number of marked nodes. -/
def cnt (n : Nat) (marked : Nat → Bool) : Nat := ((range n).filter fun u => marked u = true).card

theorem cnt_le (n : Nat) (marked : Nat → Bool) : cnt n marked ≤ n := by
  have := card_filter_le (range n) fun u => marked u = true
  rwa [card_range] at this

theorem cnt_upd {n : Nat} {marked : Nat → Bool} {u : Nat} (hu : u < n) (h : marked u = false) :
    cnt n (upd marked u true) = cnt n marked + 1 := by
  unfold cnt
  have : (range n).filter (fun v => upd marked u true v = true) = insert u ((range n).filter fun v => marked v = true) := by
    ext v
    simp only [mem_filter, mem_range, mem_insert]
    by_cases hv : v = u
    · subst hv; simp [hu]
    · rw [upd_ne _ _ hv]; simp [hv]
  rw [this, card_insert_of_notMem (by simp [h])]

theorem cnt_lt {n : Nat} {marked : Nat → Bool} {u : Nat} (hu : u < n) (h : marked u = false) : cnt n marked < n := by
  have := cnt_le n (upd marked u true)
  rw [cnt_upd hu h] at this; omega

theorem gggLoop_ok {c : Cfg} {draw : Nat → Nat → Nat} {tie : Nat → Nat} (hd : ∀ t j, draw t j < c.g.n) :
    ∀ (fuel t : Nat) (s : GGG), GInv c s → c.g.n < cnt c.g.n s.marked + fuel →
      (s.s.bw 1 < c.perfect 1 ∨ ∀ u, u < c.g.n → s.marked u = false) →
      (0 < c.perfect 1 → s.s.bw 1 < c.perfect 1) →
      (0 < c.perfect 1 → (∀ u, u < c.g.n → s.marked u = false) ∨ ∃ u, u < c.g.n ∧ s.s.part u = 1 ∧ s.s.bw 1 - c.g.w u < c.perfect 1) →
    0 < c.g.n → ∃ s', gggLoop? c draw tie fuel t s = some s' ∧ Grown c s'
  | 0, _, s, _, hf, _, _, _, _ => by
    have := cnt_le c.g.n s.marked
    omega
  | fuel + 1, t, s, hi, hf, h0, hlt, hl, hn => by
    obtain ⟨h1, h2⟩ := gggStart_unmarked (marked := s.marked) (hd t)
    unfold gggLoop?
    simp only
    generalize gggStart c.g.n s.marked (draw t) = u at h1 h2
    by_cases hu : c.g.n ≤ u
    · rw [if_pos hu]
      have hall := h2 (by omega)
      refine ⟨_, rfl, hi.bip, Or.inr fun v hv => (hi.part v hv).1 (hall v hv), fun hp => ?_⟩
      rcases hl hp with h3 | h3
      · have := h3 0 hn; rw [hall 0 hn] at this; cases this
      · exact h3
    · rw [if_neg hu]
      have hu : u < c.g.n := by omega
      have hm := h1 hu
      have hp0 : s.s.part u = 0 := by
        have := hi.bip.lt u hu
        have : s.s.part u ≠ 1 := fun h => by rw [(hi.part u hu).2 h] at hm; cases hm
        omega
      have hpush : gggPush? s.queue u (gggGain c.g s.s.part u) = some (upd (fun _ => none) u (some (gggGain c.g s.s.part u))) := by
        unfold gggPush?; rw [hi.queue]
      rw [hpush]
      simp only [Option.bind_eq_bind, Option.bind_some]
      obtain ⟨m, hm1⟩ : ∃ m, c.g.n + 1 = m + 2 := ⟨c.g.n - 1, by omega⟩
      rw [hm1, gggGrow_single hu rfl]
      simp only [Option.bind_some]
      obtain ⟨h4, h5⟩ := change_ok hi.bip hu hp0
      have hpart : (changeBlock c.g s.s u 1).part = upd s.s.part u 1 := rfl
      have hlast : 0 < c.perfect 1 → ∃ v, v < c.g.n ∧ (changeBlock c.g s.s u 1).part v = 1 ∧
          (changeBlock c.g s.s u 1).bw 1 - c.g.w v < c.perfect 1 := by
        intro hp
        refine ⟨u, hu, by rw [hpart]; simp, ?_⟩
        rw [h5]
        have := hlt hp
        omega
      split
      · rename_i hcond
        refine gggLoop_ok hd fuel (t + 1) _ ⟨h4, ?_, rfl⟩ ?_ (Or.inl hcond) (fun _ => hcond) (fun hp => Or.inr (hlast hp)) hn
        · intro v hv
          show upd s.marked u true v = true ↔ (changeBlock c.g s.s u 1).part v = 1
          rw [hpart]
          by_cases hvu : v = u
          · subst hvu; simp
          · rw [upd_ne _ _ hvu, upd_ne _ _ hvu]; exact hi.part v hv
        · show c.g.n < cnt c.g.n (upd s.marked u true) + fuel
          rw [cnt_upd hu hm]; omega
      · rename_i hcond
        exact ⟨_, rfl, h4, Or.inl (by simpa using hcond), hlast⟩

theorem totalWeight_eq (g : Graph) : totalWeight g = FlatBip.total g := by
  unfold totalWeight FlatBip.total
  have : ∀ n, (List.range n).foldl (fun x u => x + g.w u) 0 = ∑ u ∈ range n, g.w u := by
    intro n
    induction n with
    | zero => rfl
    | succ n ih => rw [List.range_succ, List.foldl_append, ih, sum_range_succ]; rfl
  exact this g.n

theorem ggg_ok {c : Cfg} {draw : Nat → Nat → Nat} {tie : Nat → Nat} (hd : ∀ t j, draw t j < c.g.n) (hn : 0 < c.g.n) {s : Bip}
    (h1 : s.bw 1 = 0) : ∃ s', ggg? c draw tie s = some s' ∧ Grown c s' := by
  unfold ggg?
  refine gggLoop_ok hd _ 0 _ ⟨⟨?_, ?_, ?_⟩, ?_, rfl⟩ (by omega) (Or.inr fun _ _ => rfl) ?_ (fun _ => Or.inl fun _ _ => rfl) hn
  · intro u hu
    show (if u < c.g.n then 0 else s.part u) < 2
    rw [if_pos hu]; omega
  · show totalWeight c.g = _
    rw [totalWeight_eq]
    apply sum_congr rfl
    intro u hu
    simp [mem_range.1 hu]
  · show s.bw 1 = _
    rw [h1]
    symm
    apply sum_eq_zero
    intro u hu
    simp [mem_range.1 hu]
  · intro u hu
    show false = true ↔ (if u < c.g.n then 0 else s.part u) = 1
    simp [hu]
  · intro hp
    show s.bw 1 < _
    omega

end Verif.FlatBip
