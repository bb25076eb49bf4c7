import Verif.Dist.ColoringProps
import Verif.Dist.ColoredLP
import Verif.Dist.ColoredLPSpec

/-!
# Moves of nodes that are not adjacent, and what they do to the cut and to the block weights
-/

namespace Verif.Dist
open Verif Verif.Math

variable {dist : List Nat} {inp : Nat → Input} {g : Nat → DGraph} {P : Nat → Nat}

theorem sum_single (a : Nat) (K : Int) : ∀ n, ((List.range n).map fun i => if i = a then K else 0).sum = if a < n then K else 0
  | 0 => by simp
  | n + 1 => by
    rw [List.range_succ, List.map_append, sum_append_int, sum_single a K n]
    simp only [List.map_cons, List.map_nil, List.sum_cons, List.sum_nil]
    by_cases h1 : a < n
    · rw [if_pos h1, if_neg (by omega), if_pos (by omega)]; omega
    · rw [if_neg h1]
      by_cases h2 : n = a
      · rw [if_pos h2, if_pos (by omega)]; omega
      · rw [if_neg h2, if_neg (by omega)]; omega

theorem sum_map_zero {α : Type} : ∀ l : List α, (l.map fun _ => (0 : Int)).sum = 0
  | [] => rfl
  | _ :: l => by rw [List.map_cons, List.sum_cons, sum_map_zero l]; omega

theorem sum_map_neg {α : Type} (φ : α → Int) : ∀ l : List α, (l.map fun x => - φ x).sum = - (l.map φ).sum
  | [] => rfl
  | a :: l => by rw [List.map_cons, List.map_cons, List.sum_cons, List.sum_cons, sum_map_neg φ l]; omega

theorem sum_map_sub {α : Type} (φ ψ : α → Int) (l : List α) : (l.map fun x => φ x - ψ x).sum = (l.map φ).sum - (l.map ψ).sum := by
  have := sum_map_add φ (fun x => - ψ x) l
  rw [sum_map_neg] at this
  rw [show (fun x => φ x - ψ x) = fun x => φ x + - ψ x from funext fun x => Int.sub_eq_add_neg, this]
  omega

theorem conn_eq (a b : Nat) : conn dist inp P a b =
    ((edges dist inp).map fun e => if e.1 = a ∧ P e.2.1 = b then e.2.2 else 0).sum := by
  unfold conn
  rw [sum_filter_map]
  simp only [decide_eq_true_iff]

/-- The owner of a node knows its edges. -/
theorem World.conn_own (W : World dist inp g) {p u : Nat} (hp : p < procs dist) (hu : u < localN dist p) (b : Nat) :
    conn dist inp P (first dist p + u) b = (((inp p).neighbours u).map fun x => if P x.1 = b then x.2 else 0).sum := by
  rw [conn_eq, ← edges_sum fun a y w => if a = first dist p + u ∧ P y = b then w else 0]
  generalize hK : (((inp p).neighbours u).map fun x => if P x.1 = b then x.2 else 0).sum = K
  have h1 : (List.range (procs dist)).map (fun q => ((List.range (localN dist q)).map fun v =>
      (((inp q).neighbours v).map fun x => if first dist q + v = first dist p + u ∧ P x.1 = b then x.2 else 0).sum).sum) =
      (List.range (procs dist)).map (fun q => ((List.range (localN dist q)).map fun v =>
        (fun a => if a = first dist p + u then K else 0) (first dist q + v)).sum) := by
    apply List.map_congr_left
    intro q hq
    have hq := List.mem_range.1 hq
    congr 1
    apply List.map_congr_left
    intro v hv
    have hv := List.mem_range.1 hv
    show _ = if first dist q + v = first dist p + u then K else 0
    by_cases h : first dist q + v = first dist p + u
    · have e1 : q = p := by rw [← (W.own_at hq hv).1, h]; exact (W.own_at hp hu).1
      subst e1
      have e2 : v = u := by omega
      subst e2
      rw [if_pos rfl, ← hK]
      simp
    · rw [if_neg h]
      simp only [h, false_and, if_false]
      exact sum_map_zero _
  rw [h1, W.tile fun a => if a = first dist p + u then K else 0, sum_single, if_pos (W.own_at hp hu).2]

/-- The cut decreases by the gain of the moved node. -/
theorem cut_move (hu : Undirected dist inp) (hl : LoopFree dist inp) (a t : Nat) :
    cut dist inp P - cut dist inp (upd P a t) = conn dist inp P a t - conn dist inp P a (P a) := by
  have h1 := directed_cut (P := P) hu
  have h2 := directed_cut (P := upd P a t) hu
  let A : Nat × Nat × Int → Int := fun e => (if e.1 = a ∧ P e.2.1 = t then e.2.2 else 0) - (if e.1 = a ∧ P e.2.1 = P a then e.2.2 else 0)
  have h3 : ((edges dist inp).map A).sum = conn dist inp P a t - conn dist inp P a (P a) := by
    rw [sum_map_sub, conn_eq, conn_eq]
  have h4 : ((edges dist inp).map fun e => A (e.2.1, e.1, e.2.2)).sum = ((edges dist inp).map A).sum := by
    have := (List.Perm.map A hu).sum_eq
    rw [List.map_map] at this
    exact this
  have h5 : ((edges dist inp).map fun e => (if P e.1 ≠ P e.2.1 then e.2.2 else 0) -
      (if upd P a t e.1 ≠ upd P a t e.2.1 then e.2.2 else 0)).sum = ((edges dist inp).map fun e => A e + A (e.2.1, e.1, e.2.2)).sum := by
    congr 1
    apply List.map_congr_left
    rintro ⟨x, y, w⟩ he
    have hne : x ≠ y := hl _ he
    show (if P x ≠ P y then w else 0) - (if upd P a t x ≠ upd P a t y then w else 0) =
      ((if x = a ∧ P y = t then w else 0) - (if x = a ∧ P y = P a then w else 0)) +
      ((if y = a ∧ P x = t then w else 0) - (if y = a ∧ P x = P a then w else 0))
    by_cases hx : x = a
    · subst hx
      have hy : ¬ y = x := fun h => hne h.symm
      rw [upd_same, upd_ne _ _ hy]
      simp only [hy, false_and, if_false, true_and]
      by_cases e1 : P y = t <;> by_cases e2 : P y = P x
      · rw [if_neg (not_not.2 e2.symm), if_neg (not_not.2 e1.symm), if_pos e1, if_pos e2]; omega
      · rw [if_pos (Ne.symm e2), if_neg (not_not.2 e1.symm), if_pos e1, if_neg e2]; omega
      · rw [if_neg (not_not.2 e2.symm), if_pos (Ne.symm e1), if_neg e1, if_pos e2]; omega
      · rw [if_pos (Ne.symm e2), if_pos (Ne.symm e1), if_neg e1, if_neg e2]; omega
    · by_cases hy : y = a
      · subst hy
        rw [upd_same, upd_ne _ _ hx]
        simp only [hx, false_and, if_false, true_and]
        by_cases e1 : P x = t <;> by_cases e2 : P x = P y
        · rw [if_neg (not_not.2 e2), if_neg (not_not.2 e1), if_pos e1, if_pos e2]; omega
        · rw [if_pos e2, if_neg (not_not.2 e1), if_pos e1, if_neg e2]; omega
        · rw [if_neg (not_not.2 e2), if_pos e1, if_neg e1, if_pos e2]; omega
        · rw [if_pos e2, if_pos e1, if_neg e1, if_neg e2]; omega
      · rw [upd_ne _ _ hx, upd_ne _ _ hy]
        simp only [hx, hy, false_and, if_false]
        omega
  rw [sum_map_sub, sum_map_add, h4, h3, h1, h2] at h5
  omega

/-- The nodes of `r` are moved to new blocks. -/
def applyMoves (P : Nat → Nat) (r : List (Nat × Nat)) : Nat → Nat := r.foldl (fun P m => upd P m.1 m.2) P

theorem applyMoves_other : ∀ (r : List (Nat × Nat)) (P : Nat → Nat) {a : Nat}, a ∉ r.map (·.1) → applyMoves P r a = P a
  | [], _, _, _ => rfl
  | m :: r, P, a, h => by
    rw [List.map_cons, List.mem_cons, not_or] at h
    show applyMoves (upd P m.1 m.2) r a = _
    rw [applyMoves_other r _ h.2, upd_ne _ _ h.1]

theorem applyMoves_moved : ∀ (r : List (Nat × Nat)) (P : Nat → Nat) {a b : Nat}, (r.map (·.1)).Nodup → (a, b) ∈ r → applyMoves P r a = b
  | [], _, _, _, _, h => absurd h List.not_mem_nil
  | m :: r, P, a, b, hn, h => by
    rw [List.map_cons, List.nodup_cons] at hn
    show applyMoves (upd P m.1 m.2) r a = _
    rcases List.mem_cons.1 h with h | h
    · rw [← h] at hn ⊢
      rw [applyMoves_other r _ hn.1, upd_same]
    · exact applyMoves_moved r _ hn.2 h

theorem conn_upd {a t a' : Nat} (h : ∀ w, (a', a, w) ∉ edges dist inp) (b : Nat) :
    conn dist inp (upd P a t) a' b = conn dist inp P a' b := by
  rw [conn_eq, conn_eq]
  congr 1
  apply List.map_congr_left
  rintro ⟨x, y, w⟩ he
  show (if x = a' ∧ upd P a t y = b then w else 0) = if x = a' ∧ P y = b then w else 0
  by_cases hx : x = a'
  · subst hx
    rw [upd_ne]
    intro hy
    exact h w (hy ▸ he)
  · simp only [hx, false_and, if_false]

theorem conn_apply : ∀ (r : List (Nat × Nat)) (P : Nat → Nat) {a : Nat}, (∀ m, m ∈ r → ∀ w, (a, m.1, w) ∉ edges dist inp) → ∀ b,
    conn dist inp (applyMoves P r) a b = conn dist inp P a b
  | [], _, _, _, _ => rfl
  | m :: r, P, a, h, b => by
    show conn dist inp (applyMoves (upd P m.1 m.2) r) a b = _
    rw [conn_apply r _ (fun m' hm => h m' (List.mem_cons_of_mem _ hm)), conn_upd (h m List.mem_cons_self)]

/-- The cut decreases by the gains of the moved nodes if these are not adjacent. -/
theorem cut_moves (hu : Undirected dist inp) (hl : LoopFree dist inp) : ∀ (r : List (Nat × Nat)) (P : Nat → Nat), (r.map (·.1)).Nodup →
    (∀ m m', m ∈ r → m' ∈ r → ∀ w, (m.1, m'.1, w) ∉ edges dist inp) →
    cut dist inp P - cut dist inp (applyMoves P r) = (r.map fun m => conn dist inp P m.1 m.2 - conn dist inp P m.1 (P m.1)).sum
  | [], P, _, _ => by
    show cut dist inp P - cut dist inp P = 0
    omega
  | m :: r, P, hn, h => by
    rw [List.map_cons, List.nodup_cons] at hn
    have h1 := cut_moves hu hl r (upd P m.1 m.2) hn.2 fun x y hx hy => h x y (List.mem_cons_of_mem _ hx) (List.mem_cons_of_mem _ hy)
    have h2 := cut_move (P := P) hu hl m.1 m.2
    have h3 : r.map (fun x => conn dist inp (upd P m.1 m.2) x.1 x.2 - conn dist inp (upd P m.1 m.2) x.1 (upd P m.1 m.2 x.1)) =
        r.map fun x => conn dist inp P x.1 x.2 - conn dist inp P x.1 (P x.1) := by
      apply List.map_congr_left
      intro x hx
      have hx1 := h x m (List.mem_cons_of_mem _ hx) List.mem_cons_self
      rw [conn_upd hx1, conn_upd hx1, upd_ne]
      intro e
      exact hn.1 (e ▸ List.mem_map.2 ⟨x, hx, rfl⟩)
    rw [h3] at h1
    show cut dist inp P - cut dist inp (applyMoves (upd P m.1 m.2) r) = _
    rw [List.map_cons, List.sum_cons]
    omega

theorem weight_move (Wt : Nat → Int) {a : Nat} (ha : a < globalN dist) (t b : Nat) :
    blockWeight dist Wt (upd P a t) b = blockWeight dist Wt P b + ((if t = b then Wt a else 0) - (if P a = b then Wt a else 0)) := by
  unfold blockWeight
  rw [sum_filter_map, sum_filter_map]
  have h1 : (List.range (globalN dist)).map (fun x => if decide (upd P a t x = b) = true then Wt x else 0) =
      (List.range (globalN dist)).map fun x => (if decide (P x = b) = true then Wt x else 0) +
        (if x = a then ((if t = b then Wt a else 0) - (if P a = b then Wt a else 0)) else 0) := by
    apply List.map_congr_left
    intro x _
    simp only [decide_eq_true_iff]
    by_cases hx : x = a
    · subst hx
      rw [upd_same, if_pos rfl]; omega
    · rw [upd_ne _ _ hx, if_neg hx]; omega
  rw [h1, sum_map_add, sum_single, if_pos ha]

theorem weight_moves (Wt : Nat → Int) : ∀ (r : List (Nat × Nat)) (P : Nat → Nat), (r.map (·.1)).Nodup → (∀ m, m ∈ r → m.1 < globalN dist) →
    ∀ b, blockWeight dist Wt (applyMoves P r) b = blockWeight dist Wt P b +
      (r.map fun m => (if m.2 = b then Wt m.1 else 0) - (if P m.1 = b then Wt m.1 else 0)).sum
  | [], P, _, _, b => by
    show blockWeight dist Wt P b = blockWeight dist Wt P b + 0
    omega
  | m :: r, P, hn, h, b => by
    rw [List.map_cons, List.nodup_cons] at hn
    have h1 := weight_moves Wt r (upd P m.1 m.2) hn.2 (fun x hx => h x (List.mem_cons_of_mem _ hx)) b
    have h2 : r.map (fun x => (if x.2 = b then Wt x.1 else 0) - (if upd P m.1 m.2 x.1 = b then Wt x.1 else 0)) =
        r.map fun x => (if x.2 = b then Wt x.1 else 0) - (if P x.1 = b then Wt x.1 else 0) := by
      apply List.map_congr_left
      intro x hx
      rw [upd_ne]
      intro e
      exact hn.1 (e ▸ List.mem_map.2 ⟨x, hx, rfl⟩)
    rw [h2, weight_move Wt (h m List.mem_cons_self)] at h1
    show blockWeight dist Wt (applyMoves (upd P m.1 m.2) r) b = _
    rw [h1, List.map_cons, List.sum_cons]
    omega

end Verif.Dist
