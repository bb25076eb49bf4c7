import Verif.Dist.ContractMap

/-!
# The edges that are sent to other processes, for the proof of C73
-/

namespace Verif.Dist
open Verif.Math

/-! ## Sums over edges -/

/-- The weight of the edges with ends in a given set. -/
def wsum (φ : Nat → Nat → Bool) (l : List GEdge) : Int := ((l.filter fun e => φ e.1 e.2.1).map (·.2.2)).sum

/-- The pairs of ends. -/
def ends (l : List GEdge) : List (Nat × Nat) := l.map fun e => (e.1, e.2.1)

theorem wsum_cons (φ : Nat → Nat → Bool) (e : GEdge) (l : List GEdge) : wsum φ (e :: l) = (if φ e.1 e.2.1 = true then e.2.2 else 0) + wsum φ l := by
  unfold wsum
  by_cases h : φ e.1 e.2.1 = true
  · rw [List.filter_cons_of_pos (by simpa using h), if_pos h, List.map_cons, List.sum_cons]
  · rw [List.filter_cons_of_neg (by simpa using h), if_neg h, Int.zero_add]

theorem wsum_append (φ : Nat → Nat → Bool) (l l' : List GEdge) : wsum φ (l ++ l') = wsum φ l + wsum φ l' := by
  unfold wsum
  rw [List.filter_append, List.map_append, sum_append_int]

theorem wsum_flatMap {α : Type} (φ : Nat → Nat → Bool) (f : α → List GEdge) : ∀ l : List α, wsum φ (l.flatMap f) = (l.map fun a => wsum φ (f a)).sum
  | [] => rfl
  | a :: l => by rw [List.flatMap_cons, wsum_append, wsum_flatMap φ f l, List.map_cons, List.sum_cons]

theorem wsum_perm (φ : Nat → Nat → Bool) {l l' : List GEdge} (h : l.Perm l') : wsum φ l = wsum φ l' := ((h.filter _).map _).sum_eq

theorem wsum_congr {φ ψ : Nat → Nat → Bool} {l : List GEdge} (h : ∀ e, e ∈ l → φ e.1 e.2.1 = ψ e.1 e.2.1) : wsum φ l = wsum ψ l := by
  unfold wsum
  rw [List.filter_congr h]

theorem wsum_mergeRuns (φ : Nat → Nat → Bool) : ∀ l : List GEdge, wsum φ (mergeRuns l) = wsum φ l
  | [] => rfl
  | e :: l => by
    have ih := wsum_mergeRuns φ l
    unfold mergeRuns
    cases hm : mergeRuns l with
    | nil =>
      rw [hm] at ih
      rw [wsum_cons, wsum_cons, ih]
    | cons f r =>
      rw [hm, wsum_cons] at ih
      dsimp only
      by_cases h : e.1 = f.1 ∧ e.2.1 = f.2.1
      · rw [if_pos h, wsum_cons, wsum_cons φ e l, ← ih, h.1, h.2]
        dsimp only
        split <;> omega
      · rw [if_neg h, wsum_cons, wsum_cons, wsum_cons φ e l, ← ih]

theorem ends_mergeRuns (k : Nat × Nat) : ∀ l : List GEdge, k ∈ ends (mergeRuns l) ↔ k ∈ ends l
  | [] => Iff.rfl
  | e :: l => by
    have ih := ends_mergeRuns k l
    have hc : ∀ (e : GEdge) l, k ∈ ends (e :: l) ↔ k = (e.1, e.2.1) ∨ k ∈ ends l := fun e l => by
      unfold ends
      rw [List.map_cons, List.mem_cons]
    unfold mergeRuns
    cases hm : mergeRuns l with
    | nil =>
      rw [hm] at ih
      rw [hc, hc, ih]
    | cons f r =>
      rw [hm, hc] at ih
      dsimp only
      by_cases h : e.1 = f.1 ∧ e.2.1 = f.2.1
      · rw [if_pos h, hc, hc, ← ih, h.1, h.2]
        exact ⟨fun h => .inr h, fun h => h.elim .inl id⟩
      · rw [if_neg h, hc, hc, hc, ← ih]

theorem sources_mergeRuns : ∀ l : List GEdge, ((mergeRuns l).map (·.1)).Sublist (l.map (·.1))
  | [] => List.Sublist.slnil
  | e :: l => by
    have ih := sources_mergeRuns l
    unfold mergeRuns
    cases hm : mergeRuns l with
    | nil =>
      rw [hm] at ih
      exact ih.cons_cons _
    | cons f r =>
      rw [hm, List.map_cons] at ih
      dsimp only
      by_cases h : e.1 = f.1 ∧ e.2.1 = f.2.1
      · rw [if_pos h, List.map_cons, List.map_cons, h.1]
        exact ih.cons _
      · rw [if_neg h, List.map_cons, List.map_cons, List.map_cons]
        exact ih.cons_cons _

theorem length_mergeRuns (l : List GEdge) : (mergeRuns l).length ≤ l.length := by
  have := (sources_mergeRuns l).length_le
  rwa [List.length_map, List.length_map] at this

/-! ## Counting edges for each process -/

section
variable {dist : List Nat} {r : Nat} {i : Input}

theorem countEdges_ok (V : Valid dist r i) : ∀ (l : List GEdge) (num : Nat → Nat) (pe : Nat), (∀ e, e ∈ l → e.1 < globalN dist) →
    (l.Pairwise fun a b => a.1 ≤ b.1) → (∀ e, e ∈ l → first dist pe ≤ e.1) → pe + 1 < dist.length →
    ∃ pe', l.foldlM (countEdge? (procs dist) dist) (num, pe) = some ((fun q => num q + l.countP fun e => decide (ow dist e.1 = q)), pe')
  | [], num, pe, _, _, _, _ => ⟨pe, by simp⟩
  | e :: l, num, pe, h1, h2, h3, h4 => by
    have he := h1 e List.mem_cons_self
    obtain ⟨hle, h2⟩ := List.pairwise_cons.1 h2
    obtain ⟨q, hq1, hq2, hq3⟩ := advance_ok (dist := dist) he dist.length pe (h3 e List.mem_cons_self) h4 (by omega)
    have hq := hq3.lt
    have hqe : ow dist e.1 = q := V.owns_unique (V.owner he) hq3
    obtain ⟨pe', h5⟩ := countEdges_ok V l (upd num q (num q + 1)) q (fun e h => h1 e (List.mem_cons_of_mem _ h)) h2
      (fun x hx => Nat.le_trans hq2 (hle x hx)) (by unfold procs at hq; omega)
    refine ⟨pe', ?_⟩
    have hstep : countEdge? (procs dist) dist (num, pe) e = some (upd num q (num q + 1), q) := by
      unfold countEdge? countFor?
      rw [hq1, Option.bind_some, if_pos hq]
      rfl
    rw [List.foldlM_cons, hstep]
    show l.foldlM _ _ = _
    rw [h5]
    congr 2
    funext x
    rw [List.countP_cons, hqe]
    by_cases hx : x = q
    · rw [hx, upd_same, if_pos (by simp)]; omega
    · rw [upd_ne _ _ hx, if_neg (by simpa using fun h => hx h.symm)]; omega

theorem slice_eq {α : Type} (z : α) (l : List α) (a k : Nat) (h : a + k ≤ l.length) : (l.drop a).take k = (List.range' a k).map fun i => l.getD i z := by
  apply List.ext_getElem?
  intro j
  rw [List.getElem?_take, List.getElem?_map]
  by_cases hj : j < k
  · rw [if_pos hj, List.getElem?_drop, List.getElem?_range' (by omega), Option.map_some, List.getElem?_eq_getElem (by omega),
      List.getD_eq_getElem?_getD, Nat.one_mul, List.getElem?_eq_getElem (by omega)]
    rfl
  · rw [if_neg hj, List.getElem?_eq_none (by rw [List.length_range']; omega)]
    rfl

theorem slices_perm {α : Type} (z : α) (l : List α) {bs : List (Nat × Nat)}
    (hb : (bs.flatMap fun b => List.range' b.1 b.2).Perm (List.range l.length)) : (bs.flatMap fun b => (l.drop b.1).take b.2).Perm l := by
  have hin : ∀ b, b ∈ bs → (l.drop b.1).take b.2 = (List.range' b.1 b.2).map fun i => l.getD i z := by
    intro b hbm
    by_cases h0 : b.2 = 0
    · rw [h0, List.take_zero]; rfl
    · apply slice_eq
      have := List.mem_range.1 (hb.mem_iff.1 (List.mem_flatMap.2 ⟨b, hbm, List.mem_range'_1.2 (show b.1 ≤ b.1 + b.2 - 1 ∧ b.1 + b.2 - 1 < b.1 + b.2 by omega)⟩))
      omega
  have h1 : (bs.flatMap fun b => (l.drop b.1).take b.2) = (bs.flatMap fun b => List.range' b.1 b.2).map fun i => l.getD i z := by
    rw [List.map_flatMap]
    exact List.flatMap_congr hin
  rw [h1]
  refine (hb.map _).trans (List.Perm.of_eq ?_)
  apply List.ext_getElem?
  intro j
  rw [List.getElem?_map]
  by_cases hj : j < l.length
  · rw [List.getElem?_range hj, Option.map_some, List.getD_eq_getElem?_getD, List.getElem?_eq_getElem hj]
    rfl
  · rw [List.getElem?_eq_none (by rw [List.length_range]; omega), List.getElem?_eq_none (by omega)]
    rfl

theorem edgeCounts_ok (V : Valid dist r i) {S : Orders} (hS : S.Ok) {es : List GEdge} (hlt : ∀ e, e ∈ es → e.1 < globalN dist)
    (hs : es.Pairwise fun a b => a.1 ≤ b.1) :
    edgeCounts? S (procs dist) dist es = some ((List.range (procs dist)).map fun q => es.countP fun e => decide (ow dist e.1 = q)) := by
  have key : ∀ (bs : List (Nat × Nat)) (num : Nat → Nat), bs.foldlM (countBlock? (procs dist) dist es) num =
      some fun q => num q + (bs.flatMap fun b => (es.drop b.1).take b.2).countP fun e => decide (ow dist e.1 = q) := by
    intro bs
    induction bs with
    | nil => intro num; simp
    | cons b bs ih =>
      intro num
      have hsub : ((es.drop b.1).take b.2).Sublist es := (List.take_sublist _ _).trans (List.drop_sublist _ _)
      obtain ⟨pe, h⟩ := countEdges_ok V ((es.drop b.1).take b.2) num 0 (fun e he => hlt e (hsub.subset he)) (hs.sublist hsub)
        (fun e _ => by rw [V.zero]; exact Nat.zero_le _) (by have := V.exists_rank; omega)
      rw [List.foldlM_cons]
      unfold countBlock?
      rw [h]
      show bs.foldlM (countBlock? (procs dist) dist es) _ = _
      rw [ih]
      congr 1
      funext q
      rw [List.flatMap_cons, List.countP_append, Nat.add_assoc]
  unfold edgeCounts?
  rw [key, Option.map_some]
  congr 1
  apply List.map_congr_left
  intro q _
  rw [Nat.zero_add, (slices_perm (0, 0, 0) es (hS.blocks es.length)).countP_eq]

end

end Verif.Dist
