import Verif.NodeBalancer.Rounds

/-!
# C50: the distributed balancer keeps all ranks consistent and does not overload blocks
-/

namespace Verif.NodeBalancer
open List

section
variable {S : Sys} {P : Nat → Nat} {picks : Nat → List Cand}

/-! ## The reduction of the candidates -/

theorem reduced_exists {N : Nat} (hN : 0 < N) (E : Env) (picks : Nat → List Cand) : ∃ w, Reduced N E picks w := by
  have key : ∀ fuel n s, Tree.Reach (Tree.Step N (combine E)) (Tree.start N (combine E) (some []) fun r => some (picks r)) n s →
      ((List.range N).map (Tree.fin N)).sum ≤ n + fuel → ∃ w, Reduced N E picks w := by
    intro fuel
    induction fuel with
    | zero =>
      intro n s h hb
      rcases (Tree.reach_spec hN h).2 with ⟨⟨s', hs⟩, -⟩ | hf
      · have := (Tree.reach_spec hN (.tail h hs)).1
        omega
      · exact ⟨_, n, s, h, hf.1⟩
    | succ fuel ih =>
      intro n s h hb
      rcases (Tree.reach_spec hN h).2 with ⟨⟨s', hs⟩, -⟩ | hf
      · exact ih (n + 1) s' (.tail h hs) (by omega)
      · exact ⟨_, n, s, h, hf.1⟩
  exact key (((List.range N).map (Tree.fin N)).sum) 0 _ .refl (by omega)

/-- **C50, reduction of the candidates.**  If the ids are valid and the weights not negative, then the reduction over all ranks has exactly
one possible result, without undefined behaviour: a selection of the candidates that together do not overload any target block; sorted
by blocks if the lists of the ranks are; and not empty if there is a candidate and each candidate fits alone. -/
theorem C50_winners (N : Nat) (hN : 0 < N) (E : Env) (hs : ∀ l, E.sort l ~ l) (picks : Nat → List Cand)
    (hg : ∀ r, r < N → ∀ c ∈ picks r, c.id ≠ kInvalid ∧ 0 ≤ c.weight) :
    ∃ ws, (∀ w, Reduced N E picks w ↔ w = some ws) ∧ ws <+~ (List.range N).flatMap picks ∧
      (∀ b, (∃ c ∈ ws, c.from ≠ c.to ∧ c.to = b) → E.bw b + inW ws b ≤ E.maxw b) ∧
      ((∀ r, r < N → (picks r).Pairwise fun a b => a.from ≤ b.from) → ws.Pairwise fun a b => a.from ≤ b.from) ∧
      ((∀ r, r < N → ∀ c ∈ picks r, c.from = c.to ∨ E.bw c.to + c.weight ≤ E.maxw c.to) → (∃ r, r < N ∧ picks r ≠ []) → ws ≠ []) := by
  obtain ⟨w, hw⟩ := reduced_exists hN E picks
  obtain ⟨ws, rfl, h2, h3, h4, h5⟩ := reduced_spec hN hs hg hw
  refine ⟨ws, fun w' => ⟨fun h => ?_, fun h => h ▸ hw⟩, h2, h3, h4, h5⟩
  rw [reduced_value hN h, ← reduced_value hN hw]

/-! ## Sequential rounds -/

theorem overload_le {Q : Nat → Nat} (h : ∀ b, b < S.k → blockWeight S Q b ≤ max (blockWeight S P b) (S.maxw b)) :
    totalOverload S Q ≤ totalOverload S P := by
  refine sum_range_le fun b hb => ?_
  have := h b hb
  omega

theorem overload_lt {Q : Nat → Nat} (h : ∀ b, b < S.k → blockWeight S Q b ≤ max (blockWeight S P b) (S.maxw b))
    (hx : ∃ b, b < S.k ∧ blockWeight S Q b < blockWeight S P b ∧ S.maxw b < blockWeight S P b) : totalOverload S Q < totalOverload S P := by
  obtain ⟨b, hb, h1, h2⟩ := hx
  refine sum_range_lt (u := b) (fun b hb => ?_) hb ?_
  · have := h b hb
    omega
  · omega

/-- **C50, sequential rounds.**  If all ranks agree on a partition and propose nodes of overloaded blocks, then after a sequential round all
ranks agree on a partition again, and on its block weights; only proposed nodes have moved; no block has become heavier than before and
than its limit; and if there was a proposal and each one fits alone, the total overload has shrunk. -/
theorem C50_sequential (hS : S.Ok) {maxNodes : Nat} {sort : List Cand → List Cand} (hsort : ∀ l, sort l ~ l) {s s' : Nat → Rank}
    (hc : Consistent S P s) (hp : Proposal S P picks) (h : SeqRound S maxNodes sort picks s s') :
    ∃ P', Consistent S P' s' ∧ (∀ u, P' u ≠ P u → ∃ r, r < S.N ∧ ∃ c ∈ picks r, c.id = u) ∧
      (∀ b, b < S.k → blockWeight S P' b ≤ max (blockWeight S P b) (S.maxw b)) ∧ totalOverload S P' ≤ totalOverload S P ∧
      ((∀ r, r < S.N → ∀ c ∈ picks r, c.from = c.to ∨ blockWeight S P c.to + c.weight ≤ S.maxw c.to) → (∃ r, r < S.N ∧ picks r ≠ []) →
        totalOverload S P' < totalOverload S P) := by
  obtain ⟨ws, hw, hm⟩ := h
  obtain ⟨ws', he, h2, h3, -, h5⟩ := reduced_spec hS.ranks hsort (fun r hr => hp.good hS hr) hw
  cases he
  have hall := nodup_all (fun r hr c hc' => (hp.node r hr c hc').2.1) hp.distinct
  have hmem : ∀ c ∈ ws, ∃ r, r < S.N ∧ c ∈ picks r := fun c hc' => mem_all (h2.subset hc')
  obtain ⟨P', q1, q2, q3, q4⟩ := seqMoves_spec hS hc (nodup_sub h2 hall)
    (fun c hc' => by obtain ⟨r, hr, hc'⟩ := hmem c hc'; exact hp.move hr hc')
    (fun c hc' => by obtain ⟨r, hr, hc'⟩ := hmem c hc'; exact hp.overloaded r hr c hc')
    (fun b hb hx => by
      have := h3 b hx
      simp only [] at this
      rwa [hc.weights 0 hS.ranks b hb] at this) hm
  refine ⟨P', q1, fun u hu => ?_, q3, overload_le q3, fun hfit hne => overload_lt q3 (q4 (h5 (fun r hr c hc' => ?_) hne))⟩
  · obtain ⟨c, hc', rfl⟩ := q2 u hu
    obtain ⟨r, hr, hc'⟩ := hmem c hc'
    exact ⟨r, hr, c, hc', rfl⟩
  · rcases hfit r hr c hc' with h | h
    · exact .inl h
    · refine .inr ?_
      simp only []
      rwa [hc.weights 0 hS.ranks _ (hp.node r hr c hc').2.2.2.2]

/-! ## Parallel rounds -/

/-- **C50, parallel rounds.**  For every result of the dice there is no undefined behaviour, all ranks agree on a partition again, and on
its block weights, and only proposed nodes have moved, to the proposed blocks.  If moves are only accepted when balanced
(`par_accept_imbalanced_moves` is off), then no block within its limit leaves it. -/
theorem C50_parallel (hS : S.Ok) {s : Nat → Rank} (hc : Consistent S P s) (hp : Proposal S P picks) (tries : Nat) (accept : Bool)
    (rnd : Nat → Nat → Nat → Bool) :
    ∃ s' moved P', parRound? S tries accept rnd picks s = some (s', moved) ∧ Consistent S P' s' ∧
      (∀ u, P' u ≠ P u → ∃ r, r < S.N ∧ ∃ c ∈ picks r, c.id = u ∧ P' u = c.to) ∧
      (accept = false → ∀ b, b < S.k → blockWeight S P b ≤ S.maxw b → blockWeight S P' b ≤ S.maxw b) ∧ (moved = false → s' = s) :=
  parRound_spec hS hc hp tries accept rnd

/-! ## Sequences of rounds -/

/-- The states that any sequence of rounds can reach. -/
inductive Run (S : Sys) (accept : Bool) (s0 : Nat → Rank) : (Nat → Rank) → Prop
  | refl : Run S accept s0 s0
  | seq {s s' : Nat → Rank} (h : Run S accept s0 s) (maxNodes : Nat) (sort : List Cand → List Cand) (hsort : ∀ l, sort l ~ l)
      (picks : Nat → List Cand) (hp : ∀ P, Consistent S P s → Proposal S P picks) (hr : SeqRound S maxNodes sort picks s s') : Run S accept s0 s'
  | par {s s' : Nat → Rank} (h : Run S accept s0 s) (tries : Nat) (rnd : Nat → Nat → Nat → Bool) (picks : Nat → List Cand)
      (hp : ∀ P, Consistent S P s → Proposal S P picks) (moved : Bool) (hr : parRound? S tries accept rnd picks s = some (s', moved)) :
      Run S accept s0 s'

/-- **C50.**  After every sequence of rounds all ranks agree on a partition and its block weights; and if only balanced moves are accepted,
every block that was within its limit still is. -/
theorem C50_rounds (hS : S.Ok) {accept : Bool} {s0 s : Nat → Rank} (hc : Consistent S P s0) (h : Run S accept s0 s) :
    ∃ P', Consistent S P' s ∧ (accept = false → ∀ b, b < S.k → blockWeight S P b ≤ S.maxw b → blockWeight S P' b ≤ S.maxw b) := by
  induction h with
  | refl => exact ⟨P, hc, fun _ _ _ h => h⟩
  | seq _ _ _ hsort _ hp hr ih =>
    obtain ⟨Q, hQ, hl⟩ := ih
    obtain ⟨P', h1, _, h2, _⟩ := C50_sequential hS hsort hQ (hp Q hQ) hr
    refine ⟨P', h1, fun ha b hb h => ?_⟩
    have := hl ha b hb h
    have := h2 b hb
    omega
  | par _ tries rnd _ hp moved hr ih =>
    obtain ⟨Q, hQ, hl⟩ := ih
    obtain ⟨s', m, P', h0, h1, _, h2, _⟩ := C50_parallel hS hQ (hp Q hQ) tries accept rnd
    rw [h0] at hr
    cases hr
    exact ⟨P', h1, fun ha b hb h => h2 ha b hb (hl ha b hb h)⟩

/-! ## The search for a target block -/

theorem sum_blocks (S : Sys) (hb : ∀ u, u < S.n → P u < S.k) : ((List.range S.k).map (blockWeight S P)).sum = ((List.range S.n).map S.wt).sum := by
  have key : ∀ n, (∀ u, u < n → P u < S.k) →
      ((List.range S.k).map fun b => ((List.range n).map fun u => if P u = b then S.wt u else 0).sum).sum = ((List.range n).map S.wt).sum := by
    intro n
    induction n with
    | zero => intro _; exact List.sum_eq_zero fun x hx => by obtain ⟨b, _, rfl⟩ := List.mem_map.1 hx; simp
    | succ n ih =>
      intro hn
      simp only [List.range_succ, List.map_append, List.sum_append, List.map_cons, List.map_nil, List.sum_cons, List.sum_nil]
      rw [← ih fun u hu => hn u (by omega)]
      have hP := hn n (by omega)
      have := sum_range_change (f := fun b => ((List.range n).map fun u => if P u = b then S.wt u else 0).sum + ((if P n = b then S.wt n else 0) + 0))
        (g := fun b => ((List.range n).map fun u => if P u = b then S.wt u else 0).sum) (u := P n) (n := S.k) hP
        (fun v _ hv => by rw [if_neg (Ne.symm hv)]; omega)
      rw [this]
      simp only [if_true]
      omega
  exact key S.n hb

/-- **C50, the search for a block.**  The search of the root for a block that can take a node never ends if and only if no other block
can take it; and this cannot happen as long as the block of the node is overloaded and the limits leave the usual room: their sum is at least the
total weight plus, for every block, the largest node weight minus one. -/
theorem C50_room (hS : S.Ok) {s : Nat → Rank} (hc : Consistent S P s) {fr cur : Nat} {w m : Int} (hcur : cur < S.k) (hfr : fr < S.k) :
    (search? S.k (s 0).bw S.maxw fr w S.k cur = none ↔ ∀ b, b < S.k → b ≠ fr → S.maxw b < blockWeight S P b + w) ∧
    (S.maxw fr < blockWeight S P fr → w ≤ m → ((List.range S.n).map S.wt).sum + S.k * (m - 1) ≤ ((List.range S.k).map S.maxw).sum → 0 < m →
      search? S.k (s 0).bw S.maxw fr w S.k cur ≠ none) := by
  have key : search? S.k (s 0).bw S.maxw fr w S.k cur = none ↔ ∀ b, b < S.k → b ≠ fr → S.maxw b < blockWeight S P b + w := by
    rw [search_none_iff hcur]
    constructor
    · intro h b hb hne
      have := (h b hb).resolve_left hne
      rw [hc.weights 0 hS.ranks b hb] at this
      omega
    · intro h b hb
      by_cases hbf : b = fr
      · exact .inl hbf
      · refine .inr ?_
        rw [hc.weights 0 hS.ranks b hb]
        exact h b hb hbf
  refine ⟨key, fun hov hwm hroom hm hnone => ?_⟩
  have hall := key.1 hnone
  have hsum := sum_blocks S hc.block
  have hlt : ((List.range S.k).map S.maxw).sum < ((List.range S.k).map fun b => blockWeight S P b + (m - 1)).sum := by
    refine sum_range_lt (u := fr) (fun b hb => ?_) hfr (by omega)
    by_cases hbf : b = fr
    · subst hbf; omega
    · have := hall b hb hbf
      omega
  have hadd : ∀ k : Nat, ((List.range k).map fun b => blockWeight S P b + (m - 1)).sum = ((List.range k).map (blockWeight S P)).sum + k * (m - 1) := by
    intro k
    induction k with
    | zero => simp
    | succ k ih =>
      simp only [List.range_succ, List.map_append, List.sum_append, List.map_cons, List.map_nil, List.sum_cons, List.sum_nil]
      rw [ih, Int.natCast_add, Int.add_mul]
      omega
  rw [hadd, hsum] at hlt
  omega

end

/-! ## Examples -/

namespace Ex

/-- Three ranks with two nodes each and three blocks, the first of which is overloaded; each rank also knows the first node. -/
def S : Sys := ⟨3, 6, 3, fun _ => 2, fun _ => 1, fun u => u / 2, fun r u => u / 2 == r || u == 0⟩

def P : Nat → Nat := fun u => if u < 4 then 0 else if u = 4 then 1 else 2

def bw : Nat → Int := fun b => if b = 0 then 4 else 1

def s : Nat → Rank := fun _ => ⟨P, bw⟩

/-- Ranks 0 and 1 propose a node each, one of them without a target block. -/
def picks : Nat → List Cand := fun r => if r = 0 then [⟨0, 0, 1, 1, 3⟩] else if r = 1 then [⟨2, 0, 0, 1, -1⟩] else []

theorem ok : S.Ok := ⟨by decide, by decide, by decide, fun _ _ => Int.one_pos, by intro u hu; simp [S]⟩

theorem consistent : Consistent S P s :=
  ⟨fun _ _ _ _ _ => rfl, fun _ _ => (by decide : ∀ b, b < 3 → bw b = blockWeight S P b), (by decide : ∀ u, u < 6 → P u < 3)⟩

theorem proposal : Proposal S P picks :=
  ⟨(by decide : ∀ r, r < 3 → _), (by decide : ∀ r, r < 3 → _), (by decide : ∀ r, r < 3 → _)⟩

/-- A sequential round is possible, and in it both nodes move. -/
example : ∃ s', SeqRound S 5 id picks s s' ∧ ∃ P', Consistent S P' s' ∧ totalOverload S P' < totalOverload S P := by
  obtain ⟨ws, hw, h2, -⟩ := C50_winners 3 (by decide) ⟨bw, S.maxw, 5, id⟩ (fun _ => .refl _) picks (by decide)
  have e := reduced_value (by decide) ((hw _).2 rfl)
  have e2 : (if (3 : Nat) = 1 then combine ⟨bw, S.maxw, 5, id⟩ (some (picks 0)) (some []) else (Tree.tree 3).eval (combine ⟨bw, S.maxw, 5, id⟩) fun r => some (picks r))
      = some [⟨0, 0, 1, 1, 3⟩, ⟨2, 0, 0, 1, -1⟩] := by decide +kernel
  rw [e2] at e
  cases e
  obtain ⟨s', hs'⟩ : ∃ s', seqMoves? S [⟨0, 0, 1, 1, 3⟩, ⟨2, 0, 0, 1, -1⟩] s = some s' := ⟨_, rfl⟩
  have hr : SeqRound S 5 id picks s s' := ⟨_, (hw _).2 rfl, hs'⟩
  obtain ⟨P', h1, _, _, _, h5⟩ := C50_sequential ok (fun _ => .refl _) consistent proposal hr
  exact ⟨s', hr, P', h1, h5 (by decide +kernel : ∀ r, r < 3 → _) ⟨0, by decide, by decide⟩⟩

/-- A parallel round. -/
example (rnd : Nat → Nat → Nat → Bool) : ∃ s' moved P', parRound? S 0 true rnd picks s = some (s', moved) ∧ Consistent S P' s' := by
  obtain ⟨s', moved, P', h1, h2, _⟩ := C50_parallel ok consistent proposal 0 true rnd
  exact ⟨s', moved, P', h1, h2⟩

/-- The limits leave room: a node of the overloaded block finds another block. -/
example : search? S.k (s 0).bw S.maxw 0 1 S.k 0 ≠ none :=
  (C50_room ok consistent (m := 1) (w := 1) (by decide) (by decide)).2 (by decide) (by decide) (by decide) (by decide)

end Ex

/-! ## A sequential round that never ends -/

namespace Hang

/-- Two ranks; 14 nodes of weight 1 without edges, five of them on rank 0; two blocks with limit 7. -/
def S : Sys := ⟨2, 14, 2, fun _ => 7, fun _ => 1, fun u => if u < 5 then 0 else 1, fun r u => (if u < 5 then 0 else 1) == r⟩

/-- All nodes are in block 0. -/
def s0 : Nat → Rank := fun _ => ⟨fun _ => 0, fun b => if b = 0 then 14 else 0⟩

/-- A node without a target block. -/
def c (u : Nat) : Cand := ⟨u, 0, 0, 1, 0⟩

/-- In the first round each rank proposes five nodes; rank 0 has no others. -/
def picks1 : Nat → List Cand := fun r => if r = 0 then [c 0, c 1, c 2, c 3, c 4] else [c 5, c 6, c 7, c 8, c 9]

def P1 : Nat → Nat := fun u => if u < 5 then 1 else 0

/-- In the second round rank 1 proposes the same nodes again. -/
def picks2 : Nat → List Cand := fun r => if r = 0 then [] else [c 5, c 6, c 7, c 8, c 9]

theorem ok : S.Ok := ⟨by decide, by decide, by decide, fun _ _ => Int.one_pos, by intro u hu; simp [S]⟩

end Hang

open Hang in
/-- **Sequential rounds may never end.**  The second of two rounds moves more nodes out of the block than necessary, and for the third of
them there is no room in any block, although the nodes fit perfectly into the blocks.  (`seq_num_nodes_per_block` is 5.) -/
theorem C50_not_terminating : Consistent S (fun _ => 0) s0 ∧ Proposal S (fun _ => 0) picks1 ∧
    ∃ s1, SeqRound S 5 id picks1 s0 s1 ∧ Consistent S P1 s1 ∧ Proposal S P1 picks2 ∧
      ∃ ws, Reduced 2 ⟨(s1 0).bw, S.maxw, 5, id⟩ picks2 (some ws) ∧ seqMoves? S ws s1 = none := by
  refine ⟨⟨fun _ _ _ _ _ => rfl, (by decide +kernel : ∀ r, r < 2 → ∀ b, b < 2 → _), fun _ _ => by decide⟩,
    ⟨(by decide +kernel : ∀ r, r < 2 → _), (by decide +kernel : ∀ r, r < 2 → _), (by decide +kernel : ∀ r, r < 2 → _)⟩, ?_⟩
  obtain ⟨w1, h1⟩ := reduced_exists (N := 2) (by decide) ⟨(s0 0).bw, S.maxw, 5, id⟩ picks1
  have e1 := reduced_value (by decide) h1
  have e1' : (if (2 : Nat) = 1 then combine ⟨(s0 0).bw, S.maxw, 5, id⟩ (some (picks1 0)) (some [])
      else (Tree.tree 2).eval (combine ⟨(s0 0).bw, S.maxw, 5, id⟩) fun r => some (picks1 r)) = some [c 0, c 1, c 2, c 3, c 4] := by decide +kernel
  rw [e1'] at e1
  subst e1
  refine ⟨_, ⟨_, h1, rfl⟩, ⟨(by decide +kernel : ∀ r, r < 2 → ∀ u, u < 14 → _), (by decide +kernel : ∀ r, r < 2 → ∀ b, b < 2 → _),
    (by decide +kernel : ∀ u, u < 14 → P1 u < 2)⟩,
    ⟨(by decide +kernel : ∀ r, r < 2 → _), (by decide +kernel : ∀ r, r < 2 → _), (by decide +kernel : ∀ r, r < 2 → _)⟩,
    [c 5, c 6, c 7, c 8, c 9], ?_, rfl⟩
  obtain ⟨w2, h2⟩ := reduced_exists (N := 2) (by decide) ⟨_, S.maxw, 5, id⟩ picks2
  have e2 := reduced_value (by decide) h2
  convert h2
  rw [e2]
  decide +kernel

/-! ## A parallel round that overloads a block -/

namespace Imbalanced

/-- Four nodes of weight 1 on one rank, all in block 0 of three blocks with limits 1, 1 and 2. -/
def S : Sys := ⟨1, 4, 3, fun b => if b = 2 then 2 else 1, fun _ => 1, fun _ => 0, fun _ _ => true⟩

def s0 : Nat → Rank := fun _ => ⟨fun _ => 0, fun b => if b = 0 then 4 else 0⟩

/-- Two nodes are to be moved to block 1. -/
def picks : Nat → List Cand := fun _ => [⟨0, 0, 1, 1, 0⟩, ⟨1, 0, 1, 1, 0⟩]

end Imbalanced

open Imbalanced in
/-- **Parallel rounds may overload blocks.**  With `par_accept_imbalanced_moves` (the default), a block within its limit may leave it. -/
theorem C50_not_balanced : Consistent S (fun _ => 0) s0 ∧ Proposal S (fun _ => 0) picks ∧ blockWeight S (fun _ => 0) 1 ≤ S.maxw 1 ∧
    ∃ s' P', parRound? S 0 true (fun _ _ _ => true) picks s0 = some (s', true) ∧ Consistent S P' s' ∧ S.maxw 1 < blockWeight S P' 1 := by
  refine ⟨⟨fun _ _ _ _ _ => rfl, (by decide +kernel : ∀ r, r < 1 → ∀ b, b < 3 → _), fun _ _ => by decide⟩,
    ⟨(by decide +kernel : ∀ r, r < 1 → _), (by decide +kernel : ∀ r, r < 1 → _), (by decide +kernel : ∀ r, r < 1 → _)⟩, by decide +kernel, ?_⟩
  exact ⟨_, fun u => if u < 2 then 1 else 0, rfl, ⟨(by decide +kernel : ∀ r, r < 1 → ∀ u, u < 4 → _), (by decide +kernel : ∀ r, r < 1 → ∀ b, b < 3 → _),
    (by decide +kernel : ∀ u, u < 4 → (if u < 2 then 1 else 0) < 3)⟩, by decide +kernel⟩

end Verif.NodeBalancer
