import Verif.ClusterBalancer.Limit
import Verif.ClusterBalancer.Props

/-!
# C88: weight limits and proposals of the cluster balancer

The limit is the stated number, it is positive if a block is overloaded, and every proposed cluster gets a block with room.
-/

namespace Verif.ClusterBalancer
open Verif

/-! ## What is expected -/

/-- Block `b` is too heavy. -/
def TooHeavy (bw maxw : Nat → Int) (b : Nat) : Prop := maxw b < bw b

/-- The cluster fits into block `b`, which is not its own. -/
def Fits (R : Round) (c b : Nat) : Prop := b < R.k ∧ b ≠ R.block c ∧ R.bw b + R.weight c ≤ R.maxw b

/-! ## The limit -/

theorem maxFold (f : Nat → Int) : ∀ (l : List Nat) (a : Int), let r := l.foldl (fun l b => max l (f b)) a
    a ≤ r ∧ (∀ b ∈ l, f b ≤ r) ∧ (r = a ∨ ∃ b ∈ l, r = f b)
  | [], a => by simp
  | x :: l, a => by
    obtain ⟨h1, h2, h3⟩ := maxFold f l (max a (f x))
    refine ⟨by dsimp only [List.foldl_cons] at *; omega, fun b hb => ?_, ?_⟩
    · rcases List.mem_cons.1 hb with rfl | hb
      · dsimp only [List.foldl_cons] at *; omega
      · exact h2 b hb
    · rcases h3 with h | ⟨b, hb, h⟩
      · by_cases hx : f x ≤ a
        · exact .inl (by rw [List.foldl_cons, h]; omega)
        · exact .inr ⟨x, List.mem_cons_self, by rw [List.foldl_cons, h]; omega⟩
      · exact .inr ⟨b, List.mem_cons_of_mem _ hb, h⟩

theorem minFold (f : Nat → Int) (hf : ∀ b, 0 ≤ f b) : ∀ l : List Nat, l.foldl (fun l b => min l (f b)) 0 = 0
  | [] => rfl
  | x :: l => by rw [List.foldl_cons, show min 0 (f x) = 0 by have := hf x; omega]; exact minFold f hf l

theorem sumFold (f : Nat → Int) : ∀ (l : List Nat) (a : Int), l.foldl (fun l b => l + f b) a = a + (l.map f).sum
  | [], a => by simp
  | x :: l, a => by rw [List.foldl_cons, sumFold f l, List.map_cons, List.sum_cons]; omega

theorem overload_sum (bw maxw : Nat → Int) : ∀ l : List Nat,
    ((l.filter fun b => decide (bw b > maxw b)).length : Int) ≤ (l.map (overloadOf bw maxw)).sum
  | [] => by simp
  | x :: l => by
    have ih := overload_sum bw maxw l
    rw [List.filter_cons, List.map_cons, List.sum_cons]
    unfold overloadOf at *
    by_cases h : bw x > maxw x
    · rw [if_pos (by simpa using h), List.length_cons]; push_cast; omega
    · rw [if_neg (by simpa using h)]; omega

theorem numImbalanced_pos {k : Nat} {bw maxw : Nat → Int} : numImbalanced k bw maxw ≠ 0 ↔ ∃ b < k, TooHeavy bw maxw b := by
  unfold numImbalanced TooHeavy
  rw [Ne, List.length_eq_zero_iff, List.filter_eq_nil_iff]
  simp

/-- **C88, the limit is the largest overload.** -/
theorem C88_max_overload {k : Nat} {bw maxw : Nat → Int} (h : ∃ b < k, TooHeavy bw maxw b) : ∃ l, baseLimit? k bw maxw .maxOverload = some l ∧ 0 < l ∧
    (∃ b < k, l = bw b - maxw b) ∧ ∀ b < k, bw b - maxw b ≤ l := by
  obtain ⟨_, h2, h3⟩ := maxFold (overloadOf bw maxw) (List.range k) 0
  obtain ⟨b, hb, ht⟩ := h
  unfold TooHeavy at ht
  have hb2 := h2 b (List.mem_range.2 hb)
  have hpos : 0 < (List.range k).foldl (fun l b => max l (overloadOf bw maxw b)) 0 := by
    have : 0 < overloadOf bw maxw b := by unfold overloadOf; omega
    omega
  refine ⟨_, rfl, hpos, ?_, fun d hd => ?_⟩
  · rcases h3 with h | ⟨d, hd, h⟩
    · omega
    · refine ⟨d, List.mem_range.1 hd, ?_⟩
      rw [h] at hpos ⊢
      unfold overloadOf at *
      omega
  · have := h2 d (List.mem_range.2 hd)
    have h' : bw d - maxw d ≤ overloadOf bw maxw d := by unfold overloadOf; omega
    omega

/-- **C88, the limit is the average overload.**  It is defined exactly if a block is overloaded; then it is the sum of the overloads, divided by the
number of overloaded blocks and rounded down, and it is positive. -/
theorem C88_avg_overload {k : Nat} {bw maxw : Nat → Int} :
    ((∃ b < k, TooHeavy bw maxw b) → ∃ l m, baseLimit? k bw maxw .avgOverload = some l ∧ 0 < l ∧
      m = ((List.range k).filter fun b => decide (maxw b < bw b)).length ∧
      l * m ≤ ((List.range k).map fun b => max 0 (bw b - maxw b)).sum ∧ ((List.range k).map fun b => max 0 (bw b - maxw b)).sum < (l + 1) * m) ∧
    ((∀ b < k, ¬ TooHeavy bw maxw b) → baseLimit? k bw maxw .avgOverload = none) := by
  constructor
  · intro h
    have hn := numImbalanced_pos.2 h
    have hs := overload_sum bw maxw (List.range k)
    have hm : (0 : Int) < (numImbalanced k bw maxw : Int) := by omega
    refine ⟨_, numImbalanced k bw maxw, if_neg hn, ?_, rfl, ?_, ?_⟩
    · rw [sumFold, Int.zero_add]
      exact Int.lt_of_lt_of_le Int.zero_lt_one ((Int.le_ediv_iff_mul_le hm).2 (by rw [Int.one_mul]; exact hs))
    · rw [sumFold, Int.zero_add]
      exact Int.ediv_mul_le _ (by omega)
    · rw [sumFold, Int.zero_add]
      exact Int.lt_ediv_add_one_mul_self _ hm
  · intro h
    refine if_pos (not_not.1 fun hn => ?_)
    obtain ⟨b, hb, ht⟩ := numImbalanced_pos.1 hn
    exact h b hb ht

/-- **C88, the smallest overload.**  The limit should be the smallest overload of an overloaded block, but it is always zero. -/
theorem C88_min_overload (k : Nat) (bw maxw : Nat → Int) : baseLimit? k bw maxw .minOverload = some 0 := by
  unfold baseLimit?
  exact congrArg some (minFold _ (fun b => by unfold overloadOf; omega) _)

/-! ## Clusters for a limit that is not positive -/

theorem growCluster_zero {e : Env} (hl : e.limit ≤ 0) {b : Built} (u : Nat) :
    ∃ b', growCluster? e b u = some b' ∧ b'.sets.members = b.sets.members ++ [[]] ∧ b'.sets.clusterOf = b.sets.clusterOf := by
  unfold growCluster?
  have : growLoop? e b.sets.members.length (e.block u) e.g.n ⟨b.sets.clusterOf, [], [u], 0, fun _ => 0, 0, 0⟩ =
      some ⟨b.sets.clusterOf, [], [u], 0, fun _ => 0, 0, 0⟩ := by
    unfold growLoop?
    dsimp only
    rw [if_neg (by omega)]
  rw [this]
  exact ⟨_, rfl, rfl, rfl⟩

/-- **C88, a limit of zero.**  If the limit is not positive, the greedy builder makes one empty cluster for every node of an overloaded block, and no
node is in a cluster: the balancer has nothing to move, and the first node of a cluster, which gives its block, does not exist. -/
theorem C88_zero_limit (e : Env) (hl : e.limit ≤ 0) (junk : Nat → Int) : ∃ b, build? e junk = some b ∧ (∀ u, b.sets.clusterOf u = none) ∧
    b.sets.members = List.replicate ((List.range e.g.n).filter fun u => decide (e.maxw (e.block u) < e.bw (e.block u))).length [] := by
  have key : ∀ (l : List Nat) (b : Built), (∀ u, b.sets.clusterOf u = none) → ∃ b', l.foldlM (buildStep? e) b = some b' ∧
      (∀ u, b'.sets.clusterOf u = none) ∧ b'.sets.members = b.sets.members ++
        List.replicate (l.filter fun u => decide (e.maxw (e.block u) < e.bw (e.block u))).length [] := by
    intro l
    induction l with
    | nil => intro b hb; exact ⟨b, rfl, hb, by simp⟩
    | cons u l ih =>
      intro b hb
      rw [List.foldlM_cons]
      by_cases hu : e.maxw (e.block u) < e.bw (e.block u)
      · obtain ⟨b', h1, h2, h3⟩ := growCluster_zero hl (b := b) u
        have hstep : buildStep? e b u = some b' := by
          unfold buildStep? Env.over
          rw [if_pos ⟨by simpa using hu, hb u⟩, h1]
        obtain ⟨b'', h4, h5, h6⟩ := ih b' (fun v => by rw [h3]; exact hb v)
        refine ⟨b'', by rw [hstep]; exact h4, h5, ?_⟩
        rw [h6, h2, List.filter_cons, if_pos (by simpa using hu), List.length_cons, List.replicate_succ, List.append_assoc]
        rfl
      · have hstep : buildStep? e b u = some b := by
          unfold buildStep? Env.over
          rw [if_neg (by simp; omega)]
        obtain ⟨b'', h4, h5, h6⟩ := ih b hb
        refine ⟨b'', by rw [hstep]; exact h4, h5, ?_⟩
        rw [h6, List.filter_cons, if_neg (by simpa using hu)]
  obtain ⟨b, h1, h2, h3⟩ := key (List.range e.g.n) ⟨⟨[], fun _ => none⟩, junk⟩ (fun _ => rfl)
  exact ⟨b, h1, h2, by simpa using h3⟩

/-! ## The search for a block -/

theorem nextTo_lt {k t : Nat} (hk : 0 < k) : nextTo k t < k := by unfold nextTo; split <;> omega

theorem nextTo_at {k t : Nat} (hk : k < 2 ^ 32) (ht : t < k) : nextTo k t = (t + 1) % k := by
  unfold nextTo
  rw [Nat.mod_eq_of_lt (show t + 1 < 2 ^ 32 by omega)]
  by_cases h : t + 1 = k
  · rw [if_pos (by omega), h, Nat.mod_self]
  · rw [if_neg (by omega), Nat.mod_eq_of_lt (by omega)]

/-- The search from `t` on: it visits the blocks after `t` in cyclic order until `fr`. -/
theorem assign_from {k : Nat} {bw maxw deltas : Nat → Int} {fr : Nat} {w : Int} (hk : k < 2 ^ 32) (hfr : fr < k) : ∀ (fuel d t : Nat), d < fuel →
    nextTo k t = (fr + k - d) % k → d < k →
    ∃ r, assign? k bw maxw deltas fr w fuel t = some r ∧ r < k ∧ (r ≠ fr → w + deltas r ≤ underloadOf bw maxw r) ∧
      (r = fr → ∀ i, 0 < i → i ≤ d → underloadOf bw maxw ((fr + k - i) % k) < w + deltas ((fr + k - i) % k))
  | 0, d, t, h, _, _ => by omega
  | fuel + 1, d, t, h, hn, hd => by
    unfold assign?
    have hlt : nextTo k t < k := nextTo_lt (by omega)
    by_cases hc : fr ≠ nextTo k t ∧ underloadOf bw maxw (nextTo k t) < w + deltas (nextTo k t)
    · rw [if_pos hc]
      have hd0 : 0 < d := by
        rcases Nat.eq_zero_or_pos d with h0 | h0
        · exfalso; apply hc.1
          rw [hn, h0, Nat.sub_zero, Nat.add_mod_right, Nat.mod_eq_of_lt hfr]
        · exact h0
      obtain ⟨r, h1, h2, h3, h4⟩ := assign_from (bw := bw) (maxw := maxw) (deltas := deltas) (w := w) hk hfr fuel (d - 1) (nextTo k t) (by omega)
        (by rw [nextTo_at hk hlt, hn, Nat.mod_add_mod]; congr 1; omega) (by omega)
      refine ⟨r, h1, h2, h3, fun hr i hi hid => ?_⟩
      by_cases hid' : i = d
      · rw [hid', ← hn]; exact hc.2
      · exact h4 hr i hi (by omega)
    · rw [if_neg hc]
      refine ⟨_, rfl, hlt, fun hne => ?_, fun hr i hi hid => ?_⟩
      · by_contra hcon
        exact hc ⟨fun h => hne h.symm, by omega⟩
      · exfalso
        rw [hn] at hr
        by_cases hdf : d ≤ fr
        · rw [show fr + k - d = (fr - d) + k by omega, Nat.add_mod_right, Nat.mod_eq_of_lt (by omega)] at hr; omega
        · rw [Nat.mod_eq_of_lt (by omega)] at hr; omega

/-- **C88, the search for a block.**  For a candidate without a target, the search ends after at most `k` steps; it finds a block with room for
the cluster and for the weight that was assigned before, unless there is none. -/
theorem C88_assign {k : Nat} {bw maxw deltas : Nat → Int} {fr : Nat} {w : Int} (hk : k < 2 ^ 32) (hfr : fr < k) :
    ∃ r, assign? k bw maxw deltas fr w k fr = some r ∧ r < k ∧ (r ≠ fr → w + deltas r ≤ max 0 (maxw r - bw r)) ∧
      (r = fr → ∀ b < k, b ≠ fr → max 0 (maxw b - bw b) < w + deltas b) := by
  obtain ⟨r, h1, h2, h3, h4⟩ := assign_from (bw := bw) (maxw := maxw) (deltas := deltas) (w := w) hk hfr k (k - 1) fr (by omega)
    (by rw [nextTo_at hk hfr]; congr 1; omega) (by omega)
  refine ⟨r, h1, h2, h3, fun hr b hb hne => ?_⟩
  by_cases hbf : b < fr
  · have := h4 hr (fr - b) (by omega) (by omega)
    rw [show fr + k - (fr - b) = b + k by omega, Nat.add_mod_right, Nat.mod_eq_of_lt hb] at this
    exact this
  · have := h4 hr (fr + k - b) (by omega) (by omega)
    rw [show fr + k - (fr + k - b) = b by omega, Nat.mod_eq_of_lt hb] at this
    exact this

/-- **C88, the search for a cluster without any target.**  If the target is the invalid block, the search starts with block 0 and ends at the own
block: the blocks after the own block are never looked at. -/
theorem C88_assign_invalid {k : Nat} {bw maxw deltas : Nat → Int} {fr : Nat} {w : Int} (hk : k < 2 ^ 32) (hfr : fr < k) :
    ∃ r, assign? k bw maxw deltas fr w k (2 ^ 32 - 1) = some r ∧ r ≤ fr ∧
      (r = fr ↔ ∀ b < fr, max 0 (maxw b - bw b) < w + deltas b) := by
  have h0 : nextTo k (2 ^ 32 - 1) = 0 := by
    unfold nextTo
    rw [show (2 ^ 32 - 1 + 1) % 2 ^ 32 = 0 by norm_num, if_neg (by omega)]
  have key : ∀ (fuel t x : Nat), nextTo k x = t → t ≤ fr → fr < t + fuel → ∃ r, assign? k bw maxw deltas fr w fuel x = some r ∧ r ≤ fr ∧
      (r = fr ↔ ∀ b, t ≤ b → b < fr → underloadOf bw maxw b < w + deltas b) := by
    intro fuel
    induction fuel with
    | zero => intro t x _ h1 h2; omega
    | succ fuel ih =>
      intro t x hn h1 h2
      unfold assign?
      rw [hn]
      by_cases hc : fr ≠ t ∧ underloadOf bw maxw t < w + deltas t
      · rw [if_pos hc]
        obtain ⟨r, h3, h4, h5⟩ := ih (t + 1) t (by rw [nextTo_at hk (by omega), Nat.mod_eq_of_lt (by omega)]) (by omega) (by omega)
        refine ⟨r, h3, h4, h5.trans ⟨fun h b hb hbf => ?_, fun h b hb hbf => h b (by omega) hbf⟩⟩
        by_cases hbt : b = t
        · rw [hbt]; exact hc.2
        · exact h b (by omega) hbf
      · rw [if_neg hc]
        refine ⟨t, rfl, h1, fun h b hb hbf => by omega, fun h => ?_⟩
        by_contra hcon
        exact hc ⟨fun h => hcon h.symm, h t (by omega) (by omega)⟩
  obtain ⟨r, h1, h2, h3⟩ := key k 0 (2 ^ 32 - 1) h0 (by omega) (by omega)
  exact ⟨r, h1, h2, h3.trans ⟨fun h b hb => h b (by omega) hb, fun h b _ hb => h b hb⟩⟩

/-! ## The proposals -/

/-- The weight that the proposals bring into block `b`. -/
def incoming (l : List Proposal) (b : Nat) : Int := ((l.filter fun p => decide (p.dst = b)).map Proposal.weight).sum

theorem target_fits {R : Round} {c : Nat} (hc : ∀ b < R.k, -2 ^ 31 < R.conn c b) (h : ∃ b, Fits R c b) : Fits R c (R.target c) := by
  obtain ⟨b, hb, ho, hf⟩ := h
  obtain ⟨h1, h2, h3, _⟩ := C86_target_partial (k := R.k) (own := R.block c) (conn := R.conn c) (bw := R.bw) (maxw := R.maxw) (w := R.weight c) hc
    ⟨b, hb, ho, hf⟩
  exact ⟨h1, h2, h3⟩

theorem target_invalid {R : Round} {c : Nat} (h : ∀ b, ¬ Fits R c b) : R.target c = 2 ^ 32 - 1 := by
  obtain ⟨h1, _⟩ := maxConn_fold (conn := R.conn c) (own := R.block c) (bw := R.bw) (maxw := R.maxw) (w := R.weight c) (List.range R.k) (-2 ^ 31, 2 ^ 32 - 1)
  rcases h1 with h' | ⟨b, hb, ho, hf, _⟩
  · exact congrArg Prod.snd h'
  · exact absurd ⟨List.mem_range.1 hb, ho, hf⟩ (h b)

/-- What the loop has done after the clusters in `l`. -/
structure Proposed (R : Round) (l : List Nat) (r : (Nat → Int) × List Proposal) : Prop where
  ids : r.2.map Proposal.id = l.filter R.picked
  each : ∀ p ∈ r.2, p.weight = R.weight p.id ∧ p.src = R.block p.id ∧ Fits R p.id p.dst ∧ ∀ b, Fits R p.id b → R.conn p.id b ≤ R.conn p.id p.dst
  deltas : ∀ b, r.1 b = incoming r.2 b

/-- **C88, the proposals.**  If every picked cluster fits into some other block, exactly the picked clusters are proposed, each with its weight and
its block, for a block with enough room that has the largest connection among these; and the weights per block are those of the proposals. -/
theorem C88_proposals_partial {R : Round} {m : Nat} (hc : ∀ c < m, ∀ b < R.k, -2 ^ 31 < R.conn c b)
    (hf : ∀ c < m, R.picked c = true → ∃ b, Fits R c b) : ∃ r, propose? R m = some r ∧ Proposed R (List.range m) r := by
  have key : ∀ (l done : List Nat) (s : (Nat → Int) × List Proposal), (∀ c ∈ l, c < m) → Proposed R done s →
      ∃ r, l.foldlM (proposeStep? R) s = some r ∧ Proposed R (done ++ l) r := by
    intro l
    induction l with
    | nil => intro done s _ P; exact ⟨s, rfl, by rw [List.append_nil]; exact P⟩
    | cons c l ih =>
      intro done s hl P
      have hcm := hl c List.mem_cons_self
      rw [List.foldlM_cons]
      by_cases hp : R.picked c = true
      · have hfit := target_fits (hc c hcm) (hf c hcm hp)
        have hstep : proposeStep? R s c = some (upd s.1 (R.target c) (s.1 (R.target c) + R.weight c),
            s.2 ++ [⟨c, R.weight c, R.block c, R.target c⟩]) := by
          unfold proposeStep?
          rw [if_pos hp, if_neg hfit.2.1, Option.bind_some, if_pos hfit.1]
        rw [hstep]
        have P' : Proposed R (done ++ [c]) (upd s.1 (R.target c) (s.1 (R.target c) + R.weight c), s.2 ++ [⟨c, R.weight c, R.block c, R.target c⟩]) := by
          refine ⟨?_, ?_, fun b => ?_⟩
          · simp [List.filter_append, P.ids, hp]
          · intro p hpm
            rcases List.mem_append.1 hpm with h | h
            · exact P.each p h
            · rw [List.mem_singleton] at h
              subst h
              obtain ⟨d, hd, ho, hdf⟩ := hf c hcm hp
              have := (C86_target_partial (k := R.k) (own := R.block c) (conn := R.conn c) (bw := R.bw) (maxw := R.maxw) (w := R.weight c)
                (hc c hcm) ⟨d, hd, ho, hdf⟩).2.2.2.2
              exact ⟨rfl, rfl, hfit, fun b hb => this b hb.1 hb.2.1 hb.2.2⟩
          · have hd := P.deltas
            unfold incoming at *
            dsimp only
            rw [List.filter_append, List.map_append, List.sum_append, ← hd b]
            by_cases hb : b = R.target c
            · subst hb; rw [upd_same]; simp
            · rw [upd_ne _ _ hb, List.filter_cons, if_neg (by simp; exact fun h => hb h.symm)]; simp
        obtain ⟨r, h1, h2⟩ := ih (done ++ [c]) _ (fun d hd => hl d (List.mem_cons_of_mem _ hd)) P'
        exact ⟨r, h1, by rw [List.append_assoc] at h2; exact h2⟩
      · have hstep : proposeStep? R s c = some s := if_neg hp
        rw [hstep]
        obtain ⟨r, h1, h2⟩ := ih (done ++ [c]) s (fun d hd => hl d (List.mem_cons_of_mem _ hd))
          ⟨by rw [List.filter_append, P.ids]; simp [hp], P.each, P.deltas⟩
        exact ⟨r, h1, by rw [List.append_assoc] at h2; exact h2⟩
  obtain ⟨r, h1, h2⟩ := key (List.range m) [] (fun _ => 0, []) (fun c h => List.mem_range.1 h) ⟨rfl, by simp, fun b => rfl⟩
  exact ⟨r, h1, h2⟩

/-- **C88, a cluster that fits nowhere.**  If a picked cluster fits into no other block, the loop writes outside of the array of weights: the code
that should look for another block is only reached if the target is the own block, and the target is never the own block. -/
theorem C88_fits_nowhere {R : Round} {m c : Nat} (hk : R.k < 2 ^ 32) (hm : c < m) (hb : R.block c < R.k) (hp : R.picked c = true)
    (hf : ∀ b, ¬ Fits R c b) : propose? R m = none := by
  have hstep : ∀ s, proposeStep? R s c = none := by
    intro s
    unfold proposeStep?
    rw [if_pos hp, target_invalid hf, if_neg (by omega), Option.bind_some, if_neg (by omega)]
  have key : ∀ (l : List Nat) (s : (Nat → Int) × List Proposal), c ∈ l → l.foldlM (proposeStep? R) s = none := by
    intro l
    induction l with
    | nil => intro s h; simp at h
    | cons x l ih =>
      intro s h
      rw [List.foldlM_cons]
      by_cases hx : x = c
      · rw [hx, hstep]; rfl
      · cases hs : proposeStep? R s x with
        | none => rfl
        | some s' => exact ih s' ((List.mem_cons.1 h).resolve_left fun h => hx h.symm)
  exact key _ _ (List.mem_range.2 hm)

/-! ## Concrete cases -/

namespace LimitExample

def bw : Nat → Int := fun b => if b = 0 then 9 else if b = 1 then 7 else 2
def maxw : Nat → Int := fun _ => 5

example : ∃ b < 3, TooHeavy bw maxw b := ⟨0, by decide, by unfold TooHeavy; decide⟩

/-- The overloads are 4, 2 and 0. -/
example : baseLimit? 3 bw maxw .maxOverload = some 4 ∧ baseLimit? 3 bw maxw .avgOverload = some 3 ∧ baseLimit? 3 bw maxw .minOverload = some 0 := by
  decide +kernel

/-- The search from block 2, if blocks 0 and 1 are full, and from the invalid block, which misses block 2. -/
example : assign? 3 bw maxw (fun _ => 0) 0 3 3 0 = some 2 ∧ assign? 3 bw maxw (fun _ => 0) 0 3 3 (2 ^ 32 - 1) = some 0 := by decide +kernel

/-- Two clusters of block 0 that fit into block 2, one that is not picked. -/
def R : Round := ⟨3, bw, maxw, fun c => if c = 1 then 1 else 0, fun c => if c = 0 then 3 else 1, fun c b => c + b, fun c => c != 1⟩

example : (propose? R 3).map (fun r => (r.1 2, r.2.map fun p => (p.id, p.weight, p.src, p.dst))) = some (4, [(0, 3, 0, 2), (2, 1, 0, 2)]) := by
  decide +kernel

example : (∀ c < 3, ∀ b < R.k, -2 ^ 31 < R.conn c b) ∧ ∀ c < 3, R.picked c = true → ∃ b, Fits R c b :=
  ⟨fun c hc b hb => by show (-2 ^ 31 : Int) < (c : Int) + b; omega, fun c hc _ => ⟨2, by decide, by
    show 2 ≠ if c = 1 then 1 else 0
    split <;> decide, by
    show (2 : Int) + (if c = 0 then 3 else 1) ≤ 5
    split <;> decide⟩⟩

/-- A cluster of weight 4 fits nowhere. -/
def R4 : Round := { R with weight := fun _ => 4 }

example : propose? R4 3 = none := by decide +kernel

end LimitExample

end Verif.ClusterBalancer
