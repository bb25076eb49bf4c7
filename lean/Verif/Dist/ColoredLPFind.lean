import Verif.Dist.ColoredLPSync

/-!
# The moves that are found
-/

namespace Verif.Dist
open Verif Verif.Math

variable {dist : List Nat} {inp : Nat → Input} {g : Nat → DGraph} {P : Nat → Nat} {Wt : Nat → Int} {cfg : LPConfig}

/-- The nodes at the positions `fr p, …, ub p - 1` of all processes `p` are different nodes, and no two of them are adjacent. -/
structure ColorClass (dist : List Nat) (inp : Nat → Input) (node : Nat → Nat → Nat) (fr ub : Nat → Nat) : Prop where
  lt : ∀ p, p < procs dist → ∀ i, fr p ≤ i → i < ub p → node p i < localN dist p
  inj : ∀ p, p < procs dist → ∀ i j, fr p ≤ i → i < ub p → fr p ≤ j → j < ub p → node p i = node p j → i = j
  apart : ∀ p q, p < procs dist → q < procs dist → ∀ i j, fr p ≤ i → i < ub p → fr q ≤ j → j < ub q → ∀ w,
    (first dist p + node p i, first dist q + node q j, w) ∉ edges dist inp

/-- Sums of edge weights do not overflow. -/
def SmallDegrees (dist : List Nat) (inp : Nat → Input) : Prop :=
  ∀ p, p < procs dist → ∀ u, u < localN dist p → (((inp p).neighbours u).map fun x => |x.2|).sum < 2 ^ 31

/-- No edge has a negative weight. -/
def NonnegEdges (dist : List Nat) (inp : Nat → Input) : Prop := ∀ e, e ∈ edges dist inp → 0 ≤ e.2.2

/-- The node `a` gets a new block by a move that does not increase the cut. -/
def Good (dist : List Nat) (inp : Nat → Input) (P : Nat → Nat) (k a : Nat) (nx : Option Nat) (gn : Int) : Prop :=
  ∃ b, nx = some b ∧ b < k ∧ gn = conn dist inp P a b - conn dist inp P a (P a) ∧ 0 ≤ gn

theorem World.ratings (W : World dist inp g) (hfit : SmallDegrees dist inp) (hpos : NonnegEdges dist inp) {p u : Nat} (hp : p < procs dist)
    (hu : u < localN dist p) {part : Nat → Nat} (hpart : ∀ l v, (g p).localToGlobal? l = some v → part l = P v) :
    ∃ adj, (g p).adjacent? u = some adj ∧ (∀ b, rating? adj part b = some (conn dist inp P (first dist p + u) b)) ∧
      (∀ b, b ∈ adj.map (fun x => part x.1) → ∃ a, a < globalN dist ∧ P a = b) ∧
      (∀ b, b ∉ adj.map (fun x => part x.1) → conn dist inp P (first dist p + u) b = 0) ∧
      ∀ b, 0 ≤ conn dist inp P (first dist p + u) b := by
  obtain ⟨adj, h1, h2⟩ := (W.represents p hp).neighbours u hu
  have hpairs : adj.map (fun x => (part x.1, x.2)) = ((inp p).neighbours u).map fun y => (P y.1, y.2) := by
    have h3 : adj.mapM (fun x => some (part x.1, x.2)) = some (((inp p).neighbours u).map fun y => (P y.1, y.2)) := by
      refine mapM_comp h2 fun x y _ hxy => ?_
      obtain ⟨v, hv, rfl⟩ := Option.map_eq_some_iff.1 hxy
      rw [hpart x.1 v hv]
    rw [mapM_some (g := fun x : Nat × Int => (part x.1, x.2)) fun _ _ => rfl] at h3
    injection h3
  have hsum : ∀ b, ((adj.filter fun x => decide (part x.1 = b)).map (·.2)).sum = conn dist inp P (first dist p + u) b := by
    intro b
    rw [W.conn_own hp hu, sum_filter_map]
    have h3 : (adj.map (fun x => (part x.1, x.2))).map (fun y : Nat × Int => if y.1 = b then y.2 else 0) =
      (((inp p).neighbours u).map fun y => (P y.1, y.2)).map (fun y : Nat × Int => if y.1 = b then y.2 else 0) := by rw [hpairs]
    rw [List.map_map, List.map_map] at h3
    simp only [decide_eq_true_iff]
    exact congrArg List.sum h3
  have habs : (adj.map fun x => |x.2|).sum < 2 ^ 31 := by
    have h3 : (adj.map (fun x => (part x.1, x.2))).map (fun y : Nat × Int => |y.2|) =
      (((inp p).neighbours u).map fun y => (P y.1, y.2)).map (fun y : Nat × Int => |y.2|) := by rw [hpairs]
    rw [List.map_map, List.map_map] at h3
    have h4 := hfit p hp u hu
    rw [show (adj.map fun x => |x.2|) = ((inp p).neighbours u).map fun x => |x.2| from h3]
    exact h4
  refine ⟨adj, h1, fun b => ?_, fun b hb => ?_, fun b hb => ?_, fun b => ?_⟩
  · unfold rating?
    rw [add_fold_abs, hsum, Int.zero_add]
    rw [abs_zero, Int.zero_add, List.map_map, sum_filter_map]
    refine Int.lt_of_le_of_lt (sum_map_le (ψ := fun x => |x.2|) fun x _ => ?_) habs
    by_cases h : decide (part x.1 = b) = true
    · rw [if_pos h]; exact Int.le_refl _
    · rw [if_neg h]; exact abs_nonneg _
  · have h3 : (adj.map (fun x => (part x.1, x.2))).map (fun y : Nat × Int => y.1) =
      (((inp p).neighbours u).map fun y => (P y.1, y.2)).map (fun y : Nat × Int => y.1) := by rw [hpairs]
    rw [List.map_map, List.map_map] at h3
    have h4 : b ∈ ((inp p).neighbours u).map fun y => P y.1 := by
      have h5 : adj.map (fun x => part x.1) = ((inp p).neighbours u).map fun y => P y.1 := h3
      rw [← h5]; exact hb
    obtain ⟨y, hy, rfl⟩ := List.mem_map.1 h4
    exact ⟨y.1, (W.valid p hp).targets _ ((W.valid p hp).neighbour_mem hu hy), rfl⟩
  · rw [← hsum]
    rw [List.filter_eq_nil_iff.2]
    · rfl
    · intro x hx h
      exact hb (List.mem_map.2 ⟨x, hx, of_decide_eq_true h⟩)
  · rw [conn_eq]
    apply sum_nonneg
    intro x hx
    obtain ⟨e, he, rfl⟩ := List.mem_map.1 hx
    by_cases h : e.1 = first dist p + u ∧ P e.2.1 = b
    · rw [if_pos h]; exact hpos e he
    · rw [if_neg h]

theorem pick_fold {own : Nat} {fits coin : Nat → Bool} : ∀ (es : List (Nat × Int)) (s : Int × Nat),
    (es.foldl (pickBlock own fits coin) s = s ∨ ∃ e, e ∈ es ∧ es.foldl (pickBlock own fits coin) s = (e.2, e.1)) ∧
    s.1 ≤ (es.foldl (pickBlock own fits coin) s).1 ∧ ∀ e, e ∈ es → e.1 = own → e.2 ≤ (es.foldl (pickBlock own fits coin) s).1
  | [], s => ⟨Or.inl rfl, Int.le_refl _, fun _ h => absurd h List.not_mem_nil⟩
  | e :: es, s => by
    obtain ⟨h1, h2, h3⟩ := pick_fold (own := own) (fits := fits) (coin := coin) es (pickBlock own fits coin s e)
    rw [List.foldl_cons]
    have h4 : (pickBlock own fits coin s e = s ∨ pickBlock own fits coin s e = (e.2, e.1)) ∧ s.1 ≤ (pickBlock own fits coin s e).1 ∧
        (e.1 = own → e.2 ≤ (pickBlock own fits coin s e).1) := by
      unfold pickBlock
      by_cases c1 : e.1 ≠ own ∧ fits e.1 = false
      · rw [if_pos c1]; exact ⟨Or.inl rfl, Int.le_refl _, fun h => absurd h c1.1⟩
      · rw [if_neg c1]
        by_cases c2 : e.2 > s.1 ∨ (e.2 = s.1 ∧ coin e.1 = true)
        · rw [if_pos c2]
          exact ⟨Or.inr rfl, by show s.1 ≤ e.2; omega, fun _ => Int.le_refl _⟩
        · rw [if_neg c2]
          exact ⟨Or.inl rfl, Int.le_refl _, fun _ => by omega⟩
    refine ⟨?_, by omega, fun e' he' ho => ?_⟩
    · rcases h1 with h1 | ⟨e', he', h1⟩
      · rcases h4.1 with h5 | h5
        · left; rw [h1, h5]
        · right; exact ⟨e, List.mem_cons_self, by rw [h1, h5]⟩
      · right; exact ⟨e', List.mem_cons_of_mem _ he', h1⟩
    · rcases List.mem_cons.1 he' with rfl | he'
      · have := h4.2.2 ho; omega
      · exact h3 e' he' ho

theorem World.find_move (W : World dist inp g) (hfit : SmallDegrees dist inp) (hpos : NonnegEdges dist inp)
    (hP : ∀ a, a < globalN dist → P a < cfg.k) {p : Nat} (hp : p < procs dist) {node : Nat → Nat} {i : Nat} (hu : node i < localN dist p)
    {part : Nat → Nat} (hpart : ∀ l v, (g p).localToGlobal? l = some v → part l = P v) {ch : FindChoice}
    (hch : ∀ i l, (ch.order i l).Perm l) (weights : Nat → Int) :
    ∃ m, findMove? cfg (g p) node ch part weights i = some m ∧ ∀ b gain, m = some (b, gain) →
      b ≠ P (first dist p + node i) ∧ Good dist inp P cfg.k (first dist p + node i) (some b) gain := by
  unfold findMove?
  by_cases hsk : ch.skip i = true
  · rw [if_pos hsk]; exact ⟨none, rfl, fun _ _ h => by cases h⟩
  rw [if_neg hsk]
  obtain ⟨adj, h1, h2, h3, h4, h5⟩ := W.ratings hfit hpos hp hu hpart
  rw [h1, Option.bind_some, (W.represents p hp).node_weight _ hu, Option.bind_some]
  have hkey : ∀ b, b ∈ ch.order i (adj.map fun x => part x.1).dedup ↔ b ∈ adj.map fun x => part x.1 := fun b => by
    rw [(hch i _).mem_iff, List.mem_dedup]
  rw [mapM_some (g := fun b => (b, conn dist inp P (first dist p + node i) b)) fun b hb => by
    obtain ⟨a, ha, rfl⟩ := h3 b ((hkey b).1 hb)
    rw [if_pos (hP a ha), h2]; rfl]
  rw [Option.bind_some, h2, Option.map_some]
  have hown : part (node i) = P (first dist p + node i) := hpart _ _ ((W.represents p hp).own _ hu)
  rw [hown]
  refine ⟨_, rfl, fun b gain hm => ?_⟩
  obtain ⟨h6, h7, h8⟩ := pick_fold (own := P (first dist p + node i)) (fits := fitsBlock cfg weights (ch.seen i) ((inp p).nodeWeight (node i)))
    (coin := ch.coin i) ((ch.order i (adj.map fun x => part x.1).dedup).map fun b => (b, conn dist inp P (first dist p + node i) b))
    (-B32, P (first dist p + node i))
  generalize List.foldl _ _ _ = best at h6 h7 h8 hm
  dsimp only at hm
  by_cases hb : best.2 ≠ P (first dist p + node i)
  · rw [if_pos hb] at hm
    injection hm with hm
    injection hm with e1 e2
    rcases h6 with h6 | ⟨e, he, h6⟩
    · rw [h6] at hb; exact absurd rfl hb
    · obtain ⟨b', hb', rfl⟩ := List.mem_map.1 he
      have hbb : b' = b := by rw [← e1, h6]
      subst hbb
      refine ⟨by rw [h6] at hb; exact hb, b', rfl, ?_, ?_, ?_⟩
      · obtain ⟨a, ha, hab⟩ := h3 b' ((hkey b').1 hb')
        rw [← hab]; exact hP a ha
      · rw [← e2, h6]
      · rw [← e2]
        by_cases ho : P (first dist p + node i) ∈ adj.map fun x => part x.1
        · have := h8 (P (first dist p + node i), conn dist inp P (first dist p + node i) (P (first dist p + node i)))
            (List.mem_map.2 ⟨_, (hkey _).2 ho, rfl⟩) rfl
          dsimp only at this
          omega
        · rw [h4 _ ho, h6]
          have := h5 b'
          dsimp only
          omega
  · rw [if_neg hb] at hm; cases hm

theorem World.find_fold (W : World dist inp g) (hfit : SmallDegrees dist inp) (hpos : NonnegEdges dist inp) (hW : HasWeights dist inp Wt)
    (hP : ∀ a, a < globalN dist → P a < cfg.k) {p : Nat} (hp : p < procs dist) {node : Nat → Nat} {ch : FindChoice}
    (hch : ∀ i l, (ch.order i l).Perm l) : ∀ (L : List Nat) (s : LPLocal × Nat), L.Nodup → (∀ i, i ∈ L → node i < localN dist p) →
    (∀ l v, (g p).localToGlobal? l = some v → s.1.part l = P v) → (∀ i, i ∈ L → s.1.next i = some (P (first dist p + node i))) →
    ∃ r, L.foldlM (findStep? cfg (g p) node ch) s = some r ∧ r.1.part = s.1.part ∧ r.1.weights = s.1.weights ∧ r.1.gained = s.1.gained ∧
      (∀ i, i ∉ L → r.1.next i = s.1.next i) ∧
      (∀ i, i ∈ L → r.1.next i = some (P (first dist p + node i)) ∨ Good dist inp P cfg.k (first dist p + node i) (r.1.next i) (r.1.gains i)) ∧
      (∀ i, i ∉ L → r.1.gains i = s.1.gains i) ∧
      (cfg.track = true → ∀ b, r.1.deltas b = s.1.deltas b + (L.map fun i => (if r.1.next i = some b then Wt (first dist p + node i) else 0) -
        (if P (first dist p + node i) = b then Wt (first dist p + node i) else 0)).sum)
  | [], s, _, _, _, _ => ⟨s, rfl, rfl, rfl, rfl, fun _ _ => rfl, fun _ h => absurd h List.not_mem_nil, fun _ _ => rfl, fun _ b => by
      rw [List.map_nil, List.sum_nil]; omega⟩
  | i :: L, s, hn, hlt, hpart, hnext => by
    obtain ⟨hn1, hn2⟩ := List.nodup_cons.1 hn
    have hm : ∀ j, j ∈ L → j ∈ i :: L := fun j hj => List.mem_cons_of_mem _ hj
    have hu := hlt i List.mem_cons_self
    have hown : s.1.part (node i) = P (first dist p + node i) := hpart _ _ ((W.represents p hp).own _ hu)
    obtain ⟨m, h1, h2⟩ := W.find_move (cfg := cfg) hfit hpos hP hp (node := node) hu hpart hch s.1.weights
    have hstep : ∃ s1, findStep? cfg (g p) node ch s i = some s1 ∧ s1.1.part = s.1.part ∧ s1.1.weights = s.1.weights ∧
        s1.1.gained = s.1.gained ∧ (∀ j, j ≠ i → s1.1.next j = s.1.next j) ∧ (∀ j, j ≠ i → s1.1.gains j = s.1.gains j) ∧
        (s1.1.next i = some (P (first dist p + node i)) ∨ Good dist inp P cfg.k (first dist p + node i) (s1.1.next i) (s1.1.gains i)) ∧
        (cfg.track = true → ∀ b, s1.1.deltas b = s.1.deltas b + ((if s1.1.next i = some b then Wt (first dist p + node i) else 0) -
          (if P (first dist p + node i) = b then Wt (first dist p + node i) else 0))) := by
      unfold findStep?
      rw [h1, Option.bind_some]
      cases m with
      | none =>
        refine ⟨s, rfl, rfl, rfl, rfl, fun _ _ => rfl, fun _ _ => rfl, Or.inl (hnext i List.mem_cons_self), fun _ b => ?_⟩
        rw [hnext i List.mem_cons_self]
        simp only [Option.some.injEq]
        omega
      | some m =>
        obtain ⟨b, gain⟩ := m
        obtain ⟨h3, h4⟩ := h2 b gain rfl
        dsimp only
        rw [(W.represents p hp).node_weight _ hu, Option.map_some, ← hW p hp _ hu, hown]
        refine ⟨_, rfl, rfl, rfl, rfl, fun j hj => upd_ne _ _ hj, fun j hj => upd_ne _ _ hj, Or.inr ?_, fun ht b' => ?_⟩
        · show Good dist inp P cfg.k _ (upd s.1.next i (some b) i) (upd s.1.gains i gain i)
          rw [upd_same, upd_same]; exact h4
        · show (if cfg.track = true then bump (bump s.1.deltas (P (first dist p + node i)) (-Wt (first dist p + node i))) b
            (Wt (first dist p + node i)) else s.1.deltas) b' = s.1.deltas b' + ((if upd s.1.next i (some b) i = some b' then _ else _) - _)
          rw [if_pos ht, upd_same]
          simp only [Option.some.injEq]
          unfold bump upd
          by_cases e1 : b' = b <;> by_cases e2 : b' = P (first dist p + node i)
          · exact absurd (e1.symm.trans e2) h3
          · subst e1
            rw [if_pos rfl, if_neg e2, if_pos rfl, if_neg (Ne.symm e2)]; omega
          · subst e2
            rw [if_neg e1, if_pos rfl, if_neg (Ne.symm e1), if_pos rfl]; omega
          · rw [if_neg e1, if_neg e2, if_neg (Ne.symm e1), if_neg (Ne.symm e2)]; omega
    obtain ⟨s1, a1, a2, a3, a4, a5, a6, a7, a8⟩ := hstep
    obtain ⟨r, b1, b2, b3, b4, b5, b6, b7, b8⟩ := W.find_fold hfit hpos hW hP hp (node := node) hch L s1 hn2 (fun j hj => hlt j (hm j hj))
      (by rw [a2]; exact hpart) (fun j hj => by rw [a5 j fun e => hn1 (e ▸ hj)]; exact hnext j (hm j hj))
    refine ⟨r, ?_, b2.trans a2, b3.trans a3, b4.trans a4, fun j hj => ?_, fun j hj => ?_, fun j hj => ?_, fun ht b => ?_⟩
    · rw [List.foldlM_cons, a1]; exact b1
    · rw [List.mem_cons, not_or] at hj
      rw [b5 j hj.2, a5 j hj.1]
    · rcases List.mem_cons.1 hj with rfl | hj
      · rw [b5 j hn1, b7 j hn1]; exact a7
      · exact b6 j hj
    · rw [List.mem_cons, not_or] at hj
      rw [b7 j hj.2, a6 j hj.1]
    · rw [b8 ht b, a8 ht b, List.map_cons, List.sum_cons, b5 i hn1]
      omega

end Verif.Dist
