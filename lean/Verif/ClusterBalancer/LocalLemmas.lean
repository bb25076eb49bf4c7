import Verif.ClusterBalancer.Local
import Verif.ClusterBalancer.Lemmas

/-! # Lemmas about the clusters of the label propagation -/

namespace Verif.ClusterBalancer
open Verif

/-- The nodes below `m` of overloaded blocks with label `l`, in increasing order. -/
def sel (I : LocalIn) (m l : Nat) : List Nat := (List.range m).filter fun u => I.over (I.block u) && decide (I.label u = l)

theorem sel_succ (I : LocalIn) (m l : Nat) :
    sel I (m + 1) l = sel I m l ++ if I.over (I.block m) = true ∧ I.label m = l then [m] else [] := by
  unfold sel
  rw [List.range_succ, List.filter_append, List.filter_cons, List.filter_nil]
  congr 1
  by_cases h : I.over (I.block m) = true ∧ I.label m = l
  · rw [if_pos h, if_pos (by simp [h.1, h.2])]
  · rw [if_neg h, if_neg (by simpa using h)]

theorem sel_len (I : LocalIn) (m l : Nat) : ∀ d, (sel I m l).length ≤ (sel I (m + d) l).length
  | 0 => Nat.le_refl _
  | d + 1 => by
    rw [← Nat.add_assoc, sel_succ, List.length_append]
    have := sel_len I m l d
    omega

theorem mem_sel {I : LocalIn} {m l u : Nat} : u ∈ sel I m l ↔ u < m ∧ I.over (I.block u) = true ∧ I.label u = l := by
  simp [sel]

theorem countStep_at {I : LocalIn} {m l : Nat} {s : (Nat → Nat) × (Nat → Nat)} (h1 : s.1 l = if sel I m l = [] then 0 else 1)
    (h2 : s.2 l = (sel I m l).length) :
    (countStep I s m).1 l = (if sel I (m + 1) l = [] then 0 else 1) ∧ (countStep I s m).2 l = (sel I (m + 1) l).length := by
  by_cases ho : I.over (I.block m) = true
  · have e : countStep I s m = (upd s.1 (I.label m) 1, upd s.2 (I.label m) (s.2 (I.label m) + 1)) := if_pos ho
    rw [e]
    dsimp only
    by_cases hl : l = I.label m
    · subst hl
      have hs : sel I (m + 1) (I.label m) = sel I m (I.label m) ++ [m] := by rw [sel_succ, if_pos ⟨ho, rfl⟩]
      rw [hs, upd_same, upd_same, h2]
      simp
    · have hs : sel I (m + 1) l = sel I m l := by rw [sel_succ, if_neg fun h => hl h.2.symm, List.append_nil]
      rw [hs, upd_ne _ _ hl, upd_ne _ _ hl]
      exact ⟨h1, h2⟩
  · have e : countStep I s m = s := if_neg ho
    have hs : sel I (m + 1) l = sel I m l := by rw [sel_succ, if_neg fun h => ho h.1, List.append_nil]
    rw [e, hs]
    exact ⟨h1, h2⟩

theorem counts_at (I : LocalIn) (m : Nat) (l : Nat) :
    ((List.range m).foldl (countStep I) (fun _ => 0, fun _ => 0)).1 l = (if sel I m l = [] then 0 else 1) ∧
      ((List.range m).foldl (countStep I) (fun _ => 0, fun _ => 0)).2 l = (sel I m l).length := by
  induction m with
  | zero => simp [sel]
  | succ m ih =>
    rw [List.range_succ, List.foldl_append, List.foldl_cons, List.foldl_nil]
    exact countStep_at ih.1 ih.2

theorem exclusive_succ (f : Nat → Nat) (l : Nat) : exclusive f (l + 1) = exclusive f l + f l := by
  unfold exclusive
  rw [List.range_succ, List.map_append, List.sum_append]; simp

theorem exclusive_mono (f : Nat → Nat) (l : Nat) : ∀ d, exclusive f l + (if d = 0 then 0 else f l) ≤ exclusive f (l + d)
  | 0 => by simp
  | 1 => by rw [exclusive_succ]; simp
  | d + 2 => by
    have := exclusive_mono f l (d + 1)
    rw [show l + (d + 2) = l + (d + 1) + 1 by omega, exclusive_succ]
    rw [if_neg (by omega)] at *
    omega

theorem exclusive_lt {f : Nat → Nat} {l l' : Nat} (h : l < l') : exclusive f l + f l ≤ exclusive f l' := by
  have := exclusive_mono f l (l' - l)
  rw [if_neg (by omega), show l + (l' - l) = l' by omega] at this
  exact this

/-- The first position of a label, and the number of its cluster. -/
def start (I : LocalIn) : Nat → Nat := exclusive (counts I).2
def rank (I : LocalIn) : Nat → Nat := exclusive (counts I).1

theorem inclusive_eq (I : LocalIn) {l : Nat} (h : sel I I.g.n l ≠ []) : inclusive (counts I).1 l - 1 = rank I l := by
  have h1 : inclusive (counts I).1 l = rank I l + (counts I).1 l := exclusive_succ _ _
  have h2 := (counts_at I I.g.n l).1
  rw [if_neg h] at h2
  have h3 : (counts I).1 l = 1 := h2
  omega

theorem rank_inj (I : LocalIn) {l l' : Nat} (h : sel I I.g.n l ≠ []) (h' : sel I I.g.n l' ≠ []) (e : rank I l = rank I l') : l = l' := by
  have key : ∀ a b, sel I I.g.n a ≠ [] → a < b → rank I a < rank I b := fun a b ha hab => by
    have h2 := (counts_at I I.g.n a).1
    rw [if_neg ha] at h2
    have h3 : (counts I).1 a = 1 := h2
    have := exclusive_lt (f := (counts I).1) hab
    unfold rank
    omega
  rcases Nat.lt_trichotomy l l' with hl | hl | hl
  · have := key l l' h hl; omega
  · exact hl
  · have := key l' l h' hl; omega

theorem start_lt (I : LocalIn) {l l' : Nat} (h : l < l') : start I l + (sel I I.g.n l).length ≤ start I l' := by
  have h2 : (counts I).2 l = (sel I I.g.n l).length := (counts_at I I.g.n l).2
  rw [← h2]
  exact exclusive_lt h

theorem localConns_at {I : LocalIn} {u c d b : Nat} (hb : b < I.g.k) : ∀ (l : List (Nat × Int)) (conns : Nat → Int),
    (∀ x ∈ l, I.block x.1 < I.g.k) → l.foldl (localConn I u c) conns (d * I.g.k + b) = conns (d * I.g.k + b) +
      if d = c then (l.map fun x => if (¬ x.1 < I.g.n ∨ I.label x.1 ≠ I.label u) ∧ I.block x.1 = b then x.2 else 0).sum else 0
  | [], conns, _ => by simp
  | x :: l, conns, h => by
    rw [List.foldl_cons, localConns_at hb l _ fun y hy => h y (List.mem_cons_of_mem _ hy)]
    unfold localConn
    by_cases hm : ¬ x.1 < I.g.n ∨ I.label x.1 ≠ I.label u
    · rw [if_pos hm]
      have h1 := addConns_at (c := c) (d := d) (block := I.block) hb [x] conns fun y hy => by
        rw [List.mem_singleton] at hy; rw [hy]; exact h x (List.mem_cons_self ..)
      rw [List.foldl_cons, List.foldl_nil] at h1
      rw [h1, List.map_cons, List.sum_cons]
      by_cases hd : d = c
      · simp only [hd, if_true, hm, true_and, List.map_cons, List.map_nil, List.sum_cons, List.sum_nil]; ring
      · simp [hd]
    · rw [if_neg hm]
      by_cases hd : d = c
      · simp only [hd, if_true, hm, false_and, if_false, List.map_cons, List.sum_cons]; ring
      · simp [hd]

/-- Invariant of the second loop. -/
structure LocalInv (I : LocalIn) (m : Nat) (s : LocalSt) : Prop where
  of : ∀ u < m, s.clusterOf u = if I.over (I.block u) = true then some (rank I (I.label u)) else none
  pos : ∀ l, s.pos l = start I l + (sel I m l).length
  zero : s.idx 0 = 0
  idx : ∀ l, sel I m l ≠ [] → s.idx (rank I l + 1) = start I l + (sel I m l).length
  arr : ∀ (l i u : Nat), (sel I m l)[i]? = some u → s.arr (start I l + i) = u
  conns : ∀ l, sel I I.g.n l ≠ [] → ∀ b < I.g.k, s.conns (rank I l * I.g.k + b) =
    (((sel I m l).flatMap I.g.adj).map fun x => if (¬ x.1 < I.g.n ∨ I.label x.1 ≠ l) ∧ I.block x.1 = b then x.2 else 0).sum

theorem localStep_inv {I : LocalIn} (hb : ∀ u < I.g.n, ∀ x ∈ I.g.adj u, I.block x.1 < I.g.k) {m : Nat} (hm : m < I.g.n) {s : LocalSt}
    (V : LocalInv I m s) : LocalInv I (m + 1) (localStep I (inclusive (counts I).1) s m) := by
  unfold localStep
  by_cases ho : I.over (I.block m) = true
  · rw [if_pos ho]
    have hsl : sel I (m + 1) (I.label m) = sel I m (I.label m) ++ [m] := by rw [sel_succ, if_pos ⟨ho, rfl⟩]
    have hso : ∀ l, l ≠ I.label m → sel I (m + 1) l = sel I m l := fun l hl => by
      rw [sel_succ, if_neg fun h => hl h.2.symm, List.append_nil]
    have hlen : ∀ l, (sel I (m + 1) l).length ≤ (sel I I.g.n l).length := fun l => by
      have := sel_len I (m + 1) l (I.g.n - (m + 1))
      rwa [show m + 1 + (I.g.n - (m + 1)) = I.g.n by omega] at this
    have hne : ∀ l, sel I (m + 1) l ≠ [] → sel I I.g.n l ≠ [] := fun l h h' => by
      have := hlen l
      rw [h'] at this
      exact h (List.eq_nil_of_length_eq_zero (by simpa using this))
    have hN : sel I I.g.n (I.label m) ≠ [] := hne _ (by rw [hsl]; simp)
    rw [inclusive_eq I hN]
    refine ⟨fun u hu => ?_, fun l => ?_, ?_, fun l hl => ?_, fun l i u hi => ?_, fun l hl b hbk => ?_⟩
    · dsimp only
      by_cases hum : u = m
      · rw [hum, upd_same, if_pos ho]
      · rw [upd_ne _ _ hum]; exact V.of u (by omega)
    · dsimp only
      by_cases hl : l = I.label m
      · rw [hl, upd_same, V.pos, hsl, List.length_append]; rfl
      · rw [upd_ne _ _ hl, V.pos, hso l hl]
    · dsimp only
      rw [upd_ne _ _ (by omega)]; exact V.zero
    · dsimp only
      by_cases hlm : l = I.label m
      · rw [hlm, upd_same, V.pos, hsl, List.length_append]; rfl
      · rw [upd_ne _ _ fun h => hlm (rank_inj I (hne l hl) hN (by omega)), hso l hlm]
        exact V.idx l (by rw [← hso l hlm]; exact hl)
    · dsimp only
      rw [V.pos]
      by_cases hlm : l = I.label m
      · subst hlm
        rw [hsl] at hi
        by_cases hil : i < (sel I m (I.label m)).length
        · rw [List.getElem?_append_left hil] at hi
          rw [upd_ne _ _ (by omega)]
          exact V.arr _ i u hi
        · rw [List.getElem?_append_right (by omega)] at hi
          have h0 : i - (sel I m (I.label m)).length = 0 := by
            by_contra hcon
            rw [List.getElem?_eq_none (by simp; omega)] at hi
            exact absurd hi (by simp)
          rw [h0] at hi
          rw [show start I (I.label m) + i = start I (I.label m) + (sel I m (I.label m)).length by omega, upd_same]
          simpa using hi
      · rw [hso l hlm] at hi
        have hil : i < (sel I m l).length := (List.getElem?_eq_some_iff.1 hi).1
        have h1 := hlen l
        rw [hso l hlm] at h1
        have h2 := hlen (I.label m)
        rw [hsl, List.length_append, List.length_singleton] at h2
        rw [upd_ne _ _ (by
          rcases Nat.lt_or_gt_of_ne hlm with h | h
          · have := start_lt I h; omega
          · have := start_lt I h; omega)]
        exact V.arr l i u hi
    · dsimp only
      rw [localConns_at hbk _ _ (hb m hm), V.conns l hl b hbk]
      by_cases hlm : l = I.label m
      · subst hlm
        rw [if_pos rfl, hsl, List.flatMap_append, List.map_append, List.sum_append, List.flatMap_singleton]
      · rw [if_neg fun h => hlm (rank_inj I hl hN h), hso l hlm, Int.add_zero]
  · rw [if_neg ho]
    have hso : ∀ l, sel I (m + 1) l = sel I m l := fun l => by rw [sel_succ, if_neg fun h => ho h.1, List.append_nil]
    refine ⟨fun u hu => ?_, fun l => by rw [hso]; exact V.pos l, V.zero, fun l hl => by rw [hso] at hl ⊢; exact V.idx l hl,
      fun l i u hi => by rw [hso] at hi; exact V.arr l i u hi, fun l hl b hbk => by rw [hso]; exact V.conns l hl b hbk⟩
    dsimp only
    by_cases hum : u = m
    · rw [hum, upd_same, if_neg ho]
    · rw [upd_ne _ _ hum]; exact V.of u (by omega)

theorem localLoop_inv {I : LocalIn} (hb : ∀ u < I.g.n, ∀ x ∈ I.g.adj u, I.block x.1 < I.g.k) (clusterOf : Nat → Option Nat) (arr idx : Nat → Nat) :
    LocalInv I I.g.n (localLoop I clusterOf arr idx) := by
  unfold localLoop
  have key : ∀ m ≤ I.g.n, LocalInv I m ((List.range m).foldl (localStep I (inclusive (counts I).1))
      ⟨clusterOf, arr, upd idx 0 0, exclusive (counts I).2, fun _ => 0⟩) := by
    intro m
    induction m with
    | zero =>
      intro _
      exact ⟨fun u h => by omega, fun l => by simp [sel, start], by simp, fun l h => by simp [sel] at h, fun l i u h => by simp [sel] at h,
        fun l _ b _ => by simp [sel]⟩
    | succ m ih =>
      intro h
      rw [List.range_succ, List.foldl_append, List.foldl_cons, List.foldl_nil]
      exact localStep_inv hb (by omega) (ih (by omega))
  exact key _ (Nat.le_refl _)

theorem idx_rank {I : LocalIn} {s : LocalSt} (V : LocalInv I I.g.n s) : ∀ t, s.idx (rank I t) = start I t
  | 0 => V.zero
  | t + 1 => by
    have ih := idx_rank V t
    have h1 : (counts I).1 t = (if sel I I.g.n t = [] then 0 else 1) := (counts_at I I.g.n t).1
    have h2 : (counts I).2 t = (sel I I.g.n t).length := (counts_at I I.g.n t).2
    have r1 : rank I (t + 1) = rank I t + (counts I).1 t := exclusive_succ _ _
    have r2 : start I (t + 1) = start I t + (counts I).2 t := exclusive_succ _ _
    by_cases h : sel I I.g.n t = []
    · rw [if_pos h] at h1
      rw [h] at h2
      rw [r1, r2, h1, h2]
      exact ih
    · rw [if_neg h] at h1
      rw [r1, r2, h1, h2]
      exact V.idx t h

theorem sliceOf_rank {I : LocalIn} {s : LocalSt} (V : LocalInv I I.g.n s) {l : Nat} (h : sel I I.g.n l ≠ []) :
    sliceOf s (rank I l) = sel I I.g.n l := by
  unfold sliceOf
  rw [V.idx l h, idx_rank V l, Nat.add_sub_cancel_left]
  refine List.ext_getElem? fun i => ?_
  by_cases hi : i < (sel I I.g.n l).length
  · have hg : (sel I I.g.n l)[i]? = some (sel I I.g.n l)[i] := List.getElem?_eq_getElem hi
    rw [hg, List.getElem?_map, List.getElem?_range' (by omega)]
    show some (s.arr (start I l + 1 * i)) = _
    rw [Nat.one_mul, V.arr l i _ hg]
  · rw [List.getElem?_eq_none (by simp; omega), List.getElem?_eq_none (by omega)]

/-- The clusters of the labels below `t`. -/
theorem members_upto {I : LocalIn} {s : LocalSt} (V : LocalInv I I.g.n s) : ∀ t, (List.range (rank I t)).map (sliceOf s) =
    ((List.range t).filter fun l => decide (sel I I.g.n l ≠ [])).map (sel I I.g.n)
  | 0 => rfl
  | t + 1 => by
    have ih := members_upto V t
    have h1 : (counts I).1 t = (if sel I I.g.n t = [] then 0 else 1) := (counts_at I I.g.n t).1
    have r1 : rank I (t + 1) = rank I t + (counts I).1 t := exclusive_succ _ _
    rw [r1, List.range_succ, List.filter_append, List.map_append, ← ih, h1]
    by_cases h : sel I I.g.n t = []
    · simp [h]
    · rw [if_neg h, List.range_succ, List.map_append]
      simp [h, sliceOf_rank V h]

end Verif.ClusterBalancer
