import Verif.NodeBalancer.Combine
import Verif.Tree.Props

/-!
# The winners of the reduction
-/

namespace Verif.NodeBalancer
open List

/-- The value of rank 0 in any execution. -/
theorem reduced_value {N : Nat} (hN : 0 < N) {E : Env} {picks : Nat → List Cand} {w : Option (List Cand)} (h : Reduced N E picks w) :
    w = if N = 1 then combine E (some (picks 0)) (some []) else (Tree.tree N).eval (combine E) fun r => some (picks r) := by
  obtain ⟨n, s, hr, hd⟩ := h
  by_cases h1 : N = 1
  · subst h1
    obtain ⟨-, rfl⟩ := Tree.reach_one Tree.start_one hr
    rw [if_pos rfl]
    rw [Tree.start_one.1] at hd
    cases hd
    rfl
  · obtain ⟨p, hpos, rfl, -⟩ := Tree.reach_conf h1 hr
    rw [if_neg h1]
    have hd' : Tree.procAt N (combine E) (fun r => some (picks r)) (p 0) 0 = .done (some w) := hd
    by_cases hp : p 0 < Tree.fin N 0
    · rw [Tree.procAt_run hp] at hd'
      cases hd'
    · rw [Tree.procAt_done hN (Nat.le_of_not_lt hp), if_pos rfl] at hd'
      cases hd'
      rfl

theorem good_of_subperm {l m : List Cand} (h : l <+~ m) (hg : Good m) : Good l := fun c hc => hg c (h.subset hc)

theorem eval_spec {E : Env} (hs : ∀ l, E.sort l ~ l) {picks : Nat → List Cand} : ∀ t : Tree.Expr, (∀ r ∈ t.leaves, Good (picks r)) →
    ∃ ws, t.eval (combine E) (fun r => some (picks r)) = some ws ∧ ws <+~ t.leaves.flatMap picks ∧
      ((∀ r ∈ t.leaves, ByFrom (picks r)) → ByFrom ws) ∧
      ((∀ r ∈ t.leaves, ∀ c ∈ picks r, Fits E c) → t.leaves.flatMap picks ≠ [] → ws ≠ []) ∧
      (2 ≤ t.leaves.length → Feasible E ws)
  | .leaf r, hg => ⟨picks r, rfl, by simpa [Tree.Expr.leaves] using List.Subperm.refl (picks r), fun h => h r (by simp [Tree.Expr.leaves]), fun _ h => by simpa [Tree.Expr.leaves] using h,
      fun h => by simp [Tree.Expr.leaves] at h⟩
  | .node a b, hg => by
    have ha : ∀ r ∈ a.leaves, r ∈ (Tree.Expr.node a b).leaves := fun r h => List.mem_append_left _ h
    have hb : ∀ r ∈ b.leaves, r ∈ (Tree.Expr.node a b).leaves := fun r h => List.mem_append_right _ h
    obtain ⟨wa, a1, a2, a3, a4, _⟩ := eval_spec hs a fun r h => hg r (ha r h)
    obtain ⟨wb, b1, b2, b3, b4, _⟩ := eval_spec hs b fun r h => hg r (hb r h)
    have hsub : wa ++ wb <+~ (Tree.Expr.node a b).leaves.flatMap picks := by
      show _ <+~ (a.leaves ++ b.leaves).flatMap picks
      rw [List.flatMap_append]
      exact a2.append b2
    have hgood : Good ((Tree.Expr.node a b).leaves.flatMap picks) := by
      intro c hc
      obtain ⟨r, hr, hc⟩ := List.mem_flatMap.1 hc
      exact hg r hr c hc
    obtain ⟨ws, c1, c2, c3, c4, c5⟩ := combine_spec hs (good_of_subperm hsub hgood)
    refine ⟨ws, ?_, c2.trans hsub, fun h => c4 (a3 fun r hr => h r (ha r hr)) (b3 fun r hr => h r (hb r hr)), fun hfit hne => ?_, fun _ => c3⟩
    · show combine E (a.eval (combine E) _) (b.eval (combine E) _) = _
      rw [a1, b1]
      exact c1
    · refine c5 (fun hnil => hne ?_) fun c hc => ?_
      · obtain ⟨h1, h2⟩ := List.append_eq_nil_iff.1 hnil
        show (a.leaves ++ b.leaves).flatMap picks = []
        rw [List.flatMap_append, List.append_eq_nil_iff]
        constructor
        · by_contra hc
          exact a4 (fun r hr => hfit r (ha r hr)) hc h1
        · by_contra hc
          exact b4 (fun r hr => hfit r (hb r hr)) hc h2
      · obtain ⟨r, hr, hc⟩ := List.mem_flatMap.1 (hsub.subset hc)
        exact hfit r hr c hc

/-- All that is needed of the winners. -/
theorem reduced_spec {N : Nat} (hN : 0 < N) {E : Env} (hs : ∀ l, E.sort l ~ l) {picks : Nat → List Cand} {w : Option (List Cand)}
    (hg : ∀ r, r < N → Good (picks r)) (h : Reduced N E picks w) :
    ∃ ws, w = some ws ∧ ws <+~ (List.range N).flatMap picks ∧ Feasible E ws ∧ ((∀ r, r < N → ByFrom (picks r)) → ByFrom ws) ∧
      ((∀ r, r < N → ∀ c ∈ picks r, Fits E c) → (∃ r, r < N ∧ picks r ≠ []) → ws ≠ []) := by
  have hv := reduced_value hN h
  by_cases h1 : N = 1
  · subst h1
    rw [if_pos rfl] at hv
    obtain ⟨ws, c1, c2, c3, c4, c5⟩ := combine_spec hs (lhs := picks 0) (rhs := []) (by rw [List.append_nil]; exact hg 0 hN)
    rw [List.append_nil] at c2 c5
    refine ⟨ws, hv.trans c1, by simpa using c2, c3, fun hb => c4 (hb 0 hN) List.Pairwise.nil, fun hfit hne => ?_⟩
    obtain ⟨r, hr, hne⟩ := hne
    have : r = 0 := by omega
    subst this
    exact c5 hne (hfit 0 hr)
  · rw [if_neg h1] at hv
    have hp := Tree.tree_leaves hN
    have hm : ∀ r, r ∈ (Tree.tree N).leaves ↔ r < N := fun r => hp.mem_iff.trans List.mem_range
    obtain ⟨ws, c1, c2, c3, c4, c5⟩ := eval_spec hs (Tree.tree N) fun r hr => hg r ((hm r).1 hr)
    have hpf : (Tree.tree N).leaves.flatMap picks ~ (List.range N).flatMap picks := hp.flatMap_right picks
    refine ⟨ws, hv.trans c1, c2.trans hpf.subperm, c5 ?_, fun hb => c3 fun r hr => hb r ((hm r).1 hr), fun hfit hne => ?_⟩
    · rw [hp.length_eq, List.length_range]
      omega
    · refine c4 (fun r hr => hfit r ((hm r).1 hr)) fun hnil => ?_
      obtain ⟨r, hr, hne⟩ := hne
      exact hne (List.flatMap_eq_nil_iff.1 hnil r ((hm r).2 hr))

end Verif.NodeBalancer
