import Mathlib.Algebra.BigOperators.Group.List.Basic
import Mathlib.Data.List.GetD
import Verif.Tree.Lemmas

/-!
# C49: the reduction tree combines the buffers of all ranks exactly once
-/

namespace Verif.Tree
variable {α : Type}

/-! ## The system with buffers -/

theorem sum_upd {N : Nat} {p : Nat → Nat} {rank : Nat} (h : rank < N) :
    ((List.range N).map (upd p rank (p rank + 1))).sum = ((List.range N).map p).sum + 1 := by
  induction N with
  | zero => omega
  | succ n ih =>
    rw [List.range_succ, List.map_append, List.map_append, List.sum_append, List.sum_append]
    by_cases hr : rank = n
    · subst hr
      have : (List.range rank).map (upd p rank (p rank + 1)) = (List.range rank).map p :=
        List.map_congr_left fun x hx => upd_ne _ _ (by have := List.mem_range.1 hx; omega)
      rw [this]
      simp
      omega
    · rw [ih (by omega)]
      have : upd p rank (p rank + 1) n = p n := upd_ne _ _ (by omega)
      simp only [List.map_cons, List.map_nil, this]
      omega

theorem sum_le {p q : Nat → Nat} (h : ∀ r, p r ≤ q r) : ∀ {l : List Nat}, (l.map p).sum ≤ (l.map q).sum
  | [] => Nat.le_refl _
  | r :: l => by
    have := h r
    have := sum_le h (l := l)
    simp only [List.map_cons, List.sum_cons]
    omega

theorem reach_conf {N : Nat} {comb : α → α → α} {buf : Nat → α} {empty : α} (hN : N ≠ 1) {n : Nat} {s : St α}
    (h : Reach (Step N comb) (start N comb empty buf) n s) :
    ∃ p, Pos N p ∧ s = conf N comb buf p ∧ ((List.range N).map p).sum = n := by
  induction h with
  | refl => exact ⟨_, Pos.init, start_conf hN empty, by simp⟩
  | tail _ hs ih =>
    obtain ⟨p, hpos, rfl, hsum⟩ := ih
    obtain ⟨rank, hr, hf, rfl, hpos'⟩ := step_conf hpos hs
    exact ⟨_, hpos', rfl, by rw [sum_upd hr, hsum]⟩

theorem conf_finished {N : Nat} {comb : α → α → α} {buf : Nat → α} (hN : 0 < N) {p : Nat → Nat}
    (h : ∀ rank, rank < N → ¬ p rank < fin N rank) : Finished N (val N comb buf (rounds N) 0) (conf N comb buf p) := by
  refine ⟨?_, fun rank h0 hr => ?_, fun src dst => ?_⟩
  · show procAt N comb buf (p 0) 0 = _
    rw [procAt_done hN (Nat.le_of_not_lt (h 0 hN)), if_pos rfl]
  · show procAt N comb buf (p rank) rank = _
    rw [procAt_done hr (Nat.le_of_not_lt (h rank hr)), if_neg (by omega)]
  · simp only [conf]
    refine if_neg ?_
    rintro ⟨h0, hs, rfl, _, h5⟩
    obtain ⟨_, _, _, t4, t5⟩ := target_spec hs h0
    have := h _ t4
    omega

/-- All ranks have returned, so no step is possible. -/
theorem finished_stuck {N : Nat} {comb : α → α → α} {result : α} {s : St α} (hf : Finished N result s) :
    (¬ ∃ s', Step N comb s s') ∧ ¬ ∃ s', SyncStep N comb s s' := by
  have hd : ∀ rank, rank < N → ∀ a b, s.procs rank ≠ .run a b := by
    intro rank hr a b hp
    by_cases h0 : rank = 0
    · subst h0; rw [hf.1] at hp; cases hp
    · rw [hf.2.1 rank (by omega) hr] at hp; cases hp
  have hl : ∀ s', ¬ Local N s s' := by
    intro s' h
    cases h with
    | exit r _ _ hr hp => exact hd r hr _ _ hp
    | «continue» r _ _ hr hp => exact hd r hr _ _ hp
    | noop r _ _ hr hp => exact hd r hr _ _ hp
  constructor
  · rintro ⟨s', h⟩
    cases h with
    | loc h => exact hl _ h
    | send r _ _ hr hp => exact hd r hr _ _ hp
    | recv r _ _ _ _ hr hp => exact hd r hr _ _ hp
  · rintro ⟨s', h⟩
    cases h with
    | loc h => exact hl _ h
    | exchange src _ _ _ _ _ hs _ _ hp => exact hd src hs _ _ hp

/-- The value of rank 0 at the end. -/
def result (N : Nat) (t : Expr) (comb : α → α → α) (empty : α) (buf : Nat → α) : α :=
  if N = 1 then comb (buf 0) empty else t.eval comb buf

/-- The expression for the result. -/
def tree (N : Nat) : Expr := expr N (rounds N) 0

theorem tree_leaves {N : Nat} (hN : 0 < N) : (tree N).leaves.Perm (List.range N) := by
  have := expr_leaves hN (rounds N)
  rw [lvl_rounds hN] at this
  simpa [tree] using this

theorem start_one {comb : α → α → α} {buf : Nat → α} {empty : α} : Finished 1 (comb (buf 0) empty) (start 1 comb empty buf) :=
  ⟨rfl, fun rank h0 hr => by omega, fun _ _ => rfl⟩

theorem reach_one {N : Nat} {comb : α → α → α} {result : α} {s0 s : St α} {n : Nat} (hf : Finished N result s0)
    (h : Reach (Step N comb) s0 n s) : n = 0 ∧ s = s0 := by
  induction h with
  | refl => exact ⟨rfl, rfl⟩
  | tail _ hs ih => rw [ih.2] at hs; exact absurd ⟨_, hs⟩ (finished_stuck hf).1

/-- What is known of every state that can be reached. -/
theorem reach_spec {N : Nat} (hN : 0 < N) {comb : α → α → α} {buf : Nat → α} {empty : α} {n : Nat} {s : St α}
    (h : Reach (Step N comb) (start N comb empty buf) n s) :
    n ≤ ((List.range N).map (fin N)).sum ∧
      (((∃ s', Step N comb s s') ∧ ((∀ x d, s.net x d = []) → ∃ s', SyncStep N comb s s')) ∨
        Finished N (result N (tree N) comb empty buf) s) := by
  by_cases h1 : N = 1
  · subst h1
    obtain ⟨rfl, rfl⟩ := reach_one start_one h
    exact ⟨Nat.zero_le _, .inr (by unfold result; rw [if_pos rfl]; exact start_one)⟩
  · obtain ⟨p, hpos, rfl, rfl⟩ := reach_conf h1 h
    refine ⟨sum_le fun r => hpos.le r, ?_⟩
    by_cases hf : ∃ rank, rank < N ∧ p rank < fin N rank
    · exact .inl (progress hpos hf)
    · refine .inr ?_
      unfold result
      rw [if_neg h1]
      exact conf_finished hN fun rank hr hp => hf ⟨rank, hr, hp⟩

/-- **C49.**  For every number of ranks there is an expression in which the buffer of each rank occurs exactly once, such that for all
buffers and combiners and every schedule: the number of steps is bounded, and the system only stops when all ranks have returned,
rank 0 with the value of the expression (with one rank: its buffer combined with the empty one) and the others with nothing, and no message is
left. -/
theorem C49_reduction (N : Nat) (hN : 0 < N) : ∃ (t : Expr) (bound : Nat), t.leaves.Perm (List.range N) ∧
    ∀ (α : Type) (comb : α → α → α) (empty : α) (buf : Nat → α) (n : Nat) (s : St α),
      Reach (Step N comb) (start N comb empty buf) n s →
        n ≤ bound ∧ ((¬ ∃ s', Step N comb s s') ↔ Finished N (if N = 1 then comb (buf 0) empty else t.eval comb buf) s) := by
  refine ⟨tree N, ((List.range N).map (fin N)).sum, tree_leaves hN, fun α comb empty buf n s h => ?_⟩
  obtain ⟨hb, hp⟩ := reach_spec hN h
  exact ⟨hb, fun hs => hp.resolve_left fun h => hs h.1, fun hf => (finished_stuck hf).1⟩

/-! ## The system without buffers -/

theorem sync_step {N : Nat} {comb : α → α → α} {s s' : St α} (he : ∀ x d, s.net x d = []) (h : SyncStep N comb s s') :
    (∀ x d, s'.net x d = []) ∧ (Step N comb s s' ∨ ∃ mid, Step N comb s mid ∧ Step N comb mid s') := by
  cases h with
  | loc h =>
    refine ⟨?_, .inl (.loc h)⟩
    cases h <;> exact he
  | exchange src dst a b x y hs hd hsd hps ha hks hrs hto hpd hb hkd hrd hfrom =>
    refine ⟨he, .inr ⟨_, .send s src a x hs hps ha hks hrs, ?_⟩⟩
    have hnet : upd s.net src (upd (s.net src) dst [x]) (dst + b / 2) dst = x :: [] := by
      rw [← hfrom, upd_same, upd_same]
    have hstep := Step.recv (N := N) (comb := comb) ⟨upd s.procs src (.done none), upd s.net src (upd (s.net src) dst [x])⟩ dst b y x [] hd
      (by show upd s.procs src _ dst = _; rw [upd_ne _ _ (Ne.symm hsd)]; exact hpd) hb hkd hrd hnet
    rw [← hto, he, List.nil_append]
    convert hstep using 2
    funext u v
    show s.net u v = upd (upd s.net src (upd (s.net src) dst [x])) (dst + b / 2)
      (upd (upd s.net src (upd (s.net src) dst [x]) (dst + b / 2)) dst []) u v
    by_cases hu : u = src
    · subst hu
      rw [← hfrom, upd_same, upd_same]
      by_cases hv : v = dst
      · subst hv; rw [upd_same, he]
      · rw [upd_ne _ _ hv, upd_ne _ _ hv]
    · rw [← hfrom, upd_ne _ _ hu, upd_ne _ _ hu]

theorem reach_sync {N : Nat} {comb : α → α → α} {s0 s : St α} {n : Nat} (he : ∀ x d, s0.net x d = [])
    (h : Reach (SyncStep N comb) s0 n s) : (∀ x d, s.net x d = []) ∧ ∃ m, n ≤ m ∧ Reach (Step N comb) s0 m s := by
  induction h with
  | refl => exact ⟨he, 0, Nat.le_refl _, .refl⟩
  | tail _ hs ih =>
    obtain ⟨h1, m, hm, h2⟩ := ih
    obtain ⟨h3, h4 | ⟨mid, h4, h5⟩⟩ := sync_step h1 hs
    · exact ⟨h3, m + 1, by omega, .tail h2 h4⟩
    · exact ⟨h3, m + 2, by omega, .tail (.tail h2 h4) h5⟩

/-- **C49, without buffers.**  The same if MPI does not buffer messages, so that a sender waits until its partner receives: there is no
deadlock, and the result is the same. -/
theorem C49_synchronous (N : Nat) (hN : 0 < N) : ∃ (t : Expr) (bound : Nat), t.leaves.Perm (List.range N) ∧
    ∀ (α : Type) (comb : α → α → α) (empty : α) (buf : Nat → α) (n : Nat) (s : St α),
      Reach (SyncStep N comb) (start N comb empty buf) n s →
        n ≤ bound ∧ ((¬ ∃ s', SyncStep N comb s s') ↔ Finished N (if N = 1 then comb (buf 0) empty else t.eval comb buf) s) := by
  refine ⟨tree N, ((List.range N).map (fin N)).sum, tree_leaves hN, fun α comb empty buf n s h => ?_⟩
  obtain ⟨he, m, hm, hr⟩ := reach_sync (fun _ _ => rfl) h
  obtain ⟨hb, hp⟩ := reach_spec hN hr
  exact ⟨Nat.le_trans hm hb, fun hs => hp.resolve_left fun h => hs (h.2 he), fun hf => (finished_stuck hf).2⟩

/-! ## Sums -/

theorem eval_fold {comb : α → α → α} {e : α} {buf : Nat → α} (hassoc : ∀ a b c, comb (comb a b) c = comb a (comb b c))
    (he : ∀ a, comb e a = a) : ∀ t : Expr, ∀ z, comb (t.eval comb buf) z = (t.leaves.map buf).foldr comb z
  | .leaf rank, z => rfl
  | .node l r, z => by
    show comb (comb _ _) z = _
    rw [hassoc, eval_fold hassoc he r, eval_fold hassoc he l, Expr.leaves, List.map_append, List.foldr_append]

/-- **C49, sums.**  If the combiner is associative and commutative and the empty buffer is its neutral element, then rank 0 returns the
combination of the buffers of all ranks. -/
theorem C49_sum (N : Nat) (hN : 0 < N) (comb : α → α → α) (empty : α) (buf : Nat → α)
    (hassoc : ∀ a b c, comb (comb a b) c = comb a (comb b c)) (hcomm : ∀ a b, comb a b = comb b a) (hempty : ∀ a, comb empty a = a)
    (n : Nat) (s : St α) (h : Reach (Step N comb) (start N comb empty buf) n s) (hs : ¬ ∃ s', Step N comb s s') :
    Finished N (((List.range N).map buf).foldr comb empty) s := by
  have hp := (reach_spec hN h).2.resolve_left fun h => hs h.1
  convert hp using 1
  unfold result
  split
  · rename_i h1; subst h1; rfl
  · have h1 := eval_fold (buf := buf) hassoc hempty (tree N) empty
    rw [hcomm, hempty] at h1
    rw [h1]
    have : RightCommutative fun a b => comb b a := ⟨fun a b c => by rw [← hassoc, hcomm c b, hassoc]⟩
    have : LeftCommutative comb := ⟨fun a b c => by rw [← hassoc, hcomm a b, hassoc]⟩
    exact (((tree_leaves hN).map buf).symm.foldr_eq _)

theorem eval_buckets {L : Nat} {buf : Nat → List Int} (hL : ∀ r, (buf r).length = L) : ∀ t : Expr,
    ∃ out, t.eval addBuckets (fun r => some (buf r)) = some out ∧ out.length = L ∧
      ∀ i, out.getD i 0 = (t.leaves.map fun r => (buf r).getD i 0).sum
  | .leaf rank => ⟨buf rank, rfl, hL rank, fun i => by simp [Expr.leaves]⟩
  | .node l r => by
    obtain ⟨a, ha, hal, has⟩ := eval_buckets hL l
    obtain ⟨b, hb, hbl, hbs⟩ := eval_buckets hL r
    refine ⟨a.zipWith (· + ·) b, ?_, by simp [hal, hbl], fun i => ?_⟩
    · show addBuckets (l.eval _ _) (r.eval _ _) = _
      rw [ha, hb]
      show (if a.length ≤ b.length then _ else _) = _
      rw [if_pos (by omega)]
    · rw [Expr.leaves, List.map_append, List.sum_append, ← has, ← hbs]
      by_cases hi : i < L
      · rw [List.getD_eq_getElem _ _ (by simp [hal, hbl, hi]), List.getD_eq_getElem _ _ (by omega), List.getD_eq_getElem _ _ (by omega),
          List.getElem_zipWith]
      · rw [List.getD_eq_default _ _ (by simp [hal, hbl]; omega), List.getD_eq_default _ _ (by omega), List.getD_eq_default _ _ (by omega)]
        rfl

/-- **C49, buckets.**  The reduction of the gain buckets of the balancer: no access is out of bounds, and each entry of the result is the
sum of the entries of all ranks. -/
theorem C49_buckets (N L : Nat) (hN : 0 < N) (buf : Nat → List Int) (hL : ∀ r, (buf r).length = L) (n : Nat) (s : St (Option (List Int)))
    (h : Reach (Step N addBuckets) (start N addBuckets (some (List.replicate L 0)) fun r => some (buf r)) n s)
    (hs : ¬ ∃ s', Step N addBuckets s s') :
    ∃ out, Finished N (some out) s ∧ out.length = L ∧ ∀ i, out.getD i 0 = ((List.range N).map fun r => (buf r).getD i 0).sum := by
  have hp := (reach_spec hN h).2.resolve_left fun h => hs h.1
  unfold result at hp
  split at hp
  · rename_i h1
    subst h1
    have hz : (buf 0).zipWith (· + ·) (List.replicate L 0) = buf 0 := by
      refine List.ext_getElem (by simp [hL]) fun i h1 h2 => ?_
      simp
    have : addBuckets (some (buf 0)) (some (List.replicate L 0)) = some (buf 0) := by
      show (if (buf 0).length ≤ (List.replicate L 0).length then _ else _) = _
      rw [if_pos (by simp [hL]), hz]
    rw [this] at hp
    exact ⟨_, hp, hL 0, fun i => by simp⟩
  · obtain ⟨out, ho, hl, hsum⟩ := eval_buckets hL (tree N)
    rw [ho] at hp
    refine ⟨out, hp, hl, fun i => ?_⟩
    rw [hsum]
    exact ((tree_leaves hN).map _).sum_eq

/-! ## Examples -/

/-- Three ranks: a schedule that runs to the end.  Rank 0 does nothing in the first round and gets the result of rank 1 in the second
one. -/
example : ∃ s, Reach (Step 3 Expr.node) (start 3 Expr.node (.leaf 9) .leaf) 6 s ∧
    Finished 3 (.node (.leaf 0) (.node (.leaf 1) (.leaf 2))) s := by
  have h1 := Reach.tail (.refl (s0 := start 3 Expr.node (.leaf 9) .leaf) (step := Step 3 Expr.node))
    (.send _ 2 3 (.leaf 2) (by decide) rfl (by decide) (by decide) (by decide))
  have h2 := h1.tail (.loc (.noop _ 0 3 (.leaf 0) (by decide) rfl (by decide) (by decide) (by decide)))
  have h3 := h2.tail (.recv _ 1 3 (.leaf 1) (.leaf 2) [] (by decide) rfl (by decide) (by decide) (by decide) rfl)
  have h4 := h3.tail (.send _ 1 2 (.node (.leaf 1) (.leaf 2)) (by decide) rfl (by decide) (by decide) (by decide))
  have h5 := h4.tail (.recv _ 0 2 (.leaf 0) (.node (.leaf 1) (.leaf 2)) [] (by decide) rfl (by decide) (by decide) (by decide) rfl)
  have h6 := h5.tail (.loc (.exit _ 0 1 (.node (.leaf 0) (.node (.leaf 1) (.leaf 2))) (by decide) rfl (by decide)))
  refine ⟨_, h6, rfl, fun rank h0 hr => ?_, fun src dst => ?_⟩
  · obtain rfl | rfl : rank = 1 ∨ rank = 2 := by omega
    · rfl
    · rfl
  · match src, dst with
    | 0, _ => rfl
    | 1, 0 => rfl
    | 1, _ + 1 => rfl
    | 2, 0 => rfl
    | 2, 1 => rfl
    | 2, _ + 2 => rfl
    | _ + 3, _ => rfl

/-- Two ranks without buffers: the first step is the exchange. -/
example : ∃ s', SyncStep 2 Expr.node (start 2 Expr.node (.leaf 9) .leaf) s' ∧ s'.procs 0 = .run 1 (.node (.leaf 0) (.leaf 1)) :=
  ⟨_, .exchange _ 1 0 2 2 (.leaf 1) (.leaf 0) (by decide) (by decide) (by decide) rfl (by decide) (by decide) (by decide) (by decide) rfl
    (by decide) (by decide) (by decide) (by decide), rfl⟩

/-- The sums meet the hypotheses: addition of integers. -/
example : ∃ n s, Reach (Step 2 fun a b : Int => a + b) (start 2 (fun a b => a + b) 0 fun r => [5, 7].getD r 0) n s ∧ Finished 2 12 s := by
  have h1 := Reach.tail (.refl (s0 := start 2 (fun a b : Int => a + b) 0 fun r => [5, 7].getD r 0) (step := Step 2 fun a b : Int => a + b))
    (.send _ 1 2 7 (by decide) rfl (by decide) (by decide) (by decide))
  have h2 := h1.tail (.recv _ 0 2 5 7 [] (by decide) rfl (by decide) (by decide) (by decide) rfl)
  have h3 := h2.tail (.loc (.exit _ 0 1 12 (by decide) rfl (by decide)))
  refine ⟨_, _, h3, rfl, fun rank h0 hr => ?_, fun src dst => ?_⟩
  · obtain rfl : rank = 1 := by omega
    rfl
  · simp only [upd, start]
    split_ifs <;> simp_all [upd]

/-- Buckets of two ranks. -/
example : addBuckets (some [1, 2]) (some [10, 20]) = some [11, 22] := rfl

end Verif.Tree
