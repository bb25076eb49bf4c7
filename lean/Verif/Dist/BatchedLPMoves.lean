import Verif.Dist.BatchedLPLocal

/-!
# The execution of the moves
-/

namespace Verif.Dist
open Verif Verif.Math

variable {dist : List Nat} {inp : Nat → Input} {g : Nat → DGraph} {P P' : Nat → Nat} {Wt : Nat → Int} {cfg : BatchConfig}
variable {fr ub : Nat → Nat} {s s' : Nat → BatchState}

/-- The moves were executed, but the other processes do not know yet; `did` is whether there was an attempt. -/
structure Executed (dist : List Nat) (g : Nat → DGraph) (Wt : Nat → Int) (cfg : BatchConfig) (fr ub : Nat → Nat) (P : Nat → Nat)
    (s : Nat → BatchState) (did : Prop) (P' : Nat → Nat) (s' : Nat → BatchState) : Prop where
  own : ∀ p, p < procs dist → ∀ u, u < localN dist p → (s' p).loc.part u = P' (first dist p + u)
  ghost : ∀ p, p < procs dist → ∀ l v, (g p).localToGlobal? l = some v → localN dist p ≤ l → (s' p).loc.part l = P v
  mark : ∀ p, p < procs dist → ∀ u, u < localN dist p → ¬ (fr p ≤ u ∧ u < ub p ∧ (s' p).loc.next u = none) →
    P' (first dist p + u) = P (first dist p + u)
  outside : ∀ p, p < procs dist → ∀ u, ¬ (fr p ≤ u ∧ u < ub p) → (s' p).loc.next u = (s p).loc.next u
  weights : ∀ p, p < procs dist → ∀ b, b < cfg.k → (s' p).loc.weights b = blockWeight dist Wt P' b
  tracked : did → ∀ p, p < procs dist → ∀ b, b < cfg.k → (s' p).tracked b = blockWeight dist Wt P' b
  blocks : ∀ a, a < globalN dist → P' a < cfg.k
  limit : cfg.ignoreProbabilities = false → ∀ b, b < cfg.k → blockWeight dist Wt P' b ≤ max (blockWeight dist Wt P b) (cfg.limit b)
  all : did → cfg.ignoreProbabilities = true → ∀ p, p < procs dist → ∀ u, fr p ≤ u → u < ub p →
    (s p).loc.next u = some (P' (first dist p + u))

theorem World.batch_moves (W : World dist inp g) (hW : HasWeights dist inp Wt) (hub : ∀ p, p < procs dist → ub p ≤ localN dist p)
    (flip : Nat → Nat → Bool) (hag : Agree dist g Wt cfg.k (fun p => (s p).loc.part) (fun p => (s p).loc.weights) P)
    (hP : ∀ a, a < globalN dist → P a < cfg.k)
    (hnext : ∀ p, p < procs dist → ∀ u, fr p ≤ u → u < ub p → ∃ b, (s p).loc.next u = some b ∧ b < cfg.k) :
    (∃ s', batchMoves? (procs dist) cfg g fr ub flip s = some (false, s') ∧ cfg.ignoreProbabilities = false ∧
      ∀ p, p < procs dist → (s' p).loc = (s p).loc ∧ (s' p).tracked = (s p).loc.weights) ∨
    (∃ s' P', batchMoves? (procs dist) cfg g fr ub flip s = some (true, s') ∧ Executed dist g Wt cfg fr ub P s True P' s') := by
  have hrange : ∀ p i, i ∈ List.range' (fr p) (ub p - fr p) ↔ fr p ≤ i ∧ i < ub p := by
    intro p i; rw [List.mem_range'_1]; omega
  have hown : ∀ p, p < procs dist → ∀ u, u < localN dist p → (s p).loc.part u = P (first dist p + u) := fun p hp u hu =>
    (hag p hp).1 _ _ ((W.represents p hp).own u hu)
  have hwt : ∀ p, p < procs dist → ∀ b, b < cfg.k → (s p).loc.weights b = blockWeight dist Wt P b := fun p hp => (hag p hp).2
  have hlt : ∀ p, p < procs dist → ∀ i, fr p ≤ i → i < ub p → i < localN dist p := fun p hp i _ h => Nat.lt_of_lt_of_le h (hub p hp)
  -- the moved nodes of a process
  let fl : Nat → Nat → Bool := fun p u => cfg.ignoreProbabilities || flip p u
  let mv : Nat → List Nat := fun p => (List.range' (fr p) (ub p - fr p)).filter (tried (s p).loc (fun u => u) (fl p))
  have hmv : ∀ p i, i ∈ mv p ↔ (fr p ≤ i ∧ i < ub p) ∧ tried (s p).loc (fun u => u) (fl p) i = true := by
    intro p i
    show i ∈ List.filter _ _ ↔ _
    rw [List.mem_filter, hrange]
  have hmvn : ∀ p, (mv p).Nodup := fun p => List.Nodup.filter _ List.nodup_range'
  obtain ⟨at_, h1, h2⟩ := forAll_ok (⟨LPLocal.zero, fun _ => 0, [], 0⟩ : Attempt) (N := procs dist)
    (f := fun p => (List.range' (fr p) (ub p - fr p)).foldlM (tryMove? (g p) (fun u => u) (fl p)) ⟨(s p).loc, fun _ => 0, [], 0⟩)
    (Q := fun p r => r.moves = (mv p).map (fun i => (i, (s p).loc.part i)) ∧
      (∀ b, r.deltas b = ((mv p).map fun i => (if target (s p).loc i = b then Wt (first dist p + i) else 0) -
        (if (s p).loc.part i = b then Wt (first dist p + i) else 0)).sum) ∧
      r.loc.weights = (s p).loc.weights ∧ r.loc.gains = (s p).loc.gains ∧ r.loc.deltas = (s p).loc.deltas ∧
      r.loc.gained = (s p).loc.gained ∧
      (∀ i, i ∈ mv p → r.loc.part i = target (s p).loc i ∧ r.loc.next i = none) ∧
      (∀ l, (∀ i, i ∈ mv p → i ≠ l) → r.loc.part l = (s p).loc.part l) ∧
      (∀ i, i ∉ mv p → r.loc.next i = (s p).loc.next i)) (by
      intro p hp
      obtain ⟨r, a1, a2, a3, a4, a5, a6, a7, a8, a9, a10, a11⟩ := try_fold (gr := g p) (node := fun u => u) (flip := fl p)
        (w := fun i => Wt (first dist p + i)) (List.range' (fr p) (ub p - fr p)) ⟨(s p).loc, fun _ => 0, [], 0⟩
        List.nodup_range' (fun i j _ _ h => h)
        (fun i hi => by
          rw [hrange] at hi
          have := hlt p hp i hi.1 hi.2
          rw [(W.represents p hp).node_weight _ this, hW p hp _ this])
      refine ⟨r, a1, ?_, fun b => ?_, a5, a6, a7, a8, fun i hi => ?_, fun l hl => ?_, fun i hi => ?_⟩
      · rw [a2]; exact List.nil_append _
      · rw [a4 b]; exact Int.zero_add _
      · have := (hmv p i).1 hi
        exact a9 i ((hrange p i).2 this.1) this.2
      · exact a10 l fun i hi ht => hl i ((hmv p i).2 ⟨(hrange p i).1 hi, ht⟩)
      · exact a11 i fun h => hi ((hmv p i).2 ⟨(hrange p i).1 h.1, h.2⟩))
  -- all moves
  let r : List (Nat × Nat) := (List.range (procs dist)).flatMap fun p => (mv p).map fun i => (first dist p + i, target (s p).loc i)
  have hrmem : ∀ m, m ∈ r ↔ ∃ p i, p < procs dist ∧ i ∈ mv p ∧ m = (first dist p + i, target (s p).loc i) := by
    intro m
    show m ∈ List.flatMap _ _ ↔ _
    rw [List.mem_flatMap]
    constructor
    · rintro ⟨p, hp, h⟩
      obtain ⟨i, hi, rfl⟩ := List.mem_map.1 h
      exact ⟨p, i, List.mem_range.1 hp, hi, rfl⟩
    · rintro ⟨p, i, hp, hi, rfl⟩
      exact ⟨p, List.mem_range.2 hp, List.mem_map.2 ⟨i, hi, rfl⟩⟩
  have htarget : ∀ p i, p < procs dist → i ∈ mv p → (s p).loc.next i = some (target (s p).loc i) ∧ target (s p).loc i < cfg.k := by
    intro p i hp hi
    obtain ⟨h3, h4⟩ := (hmv p i).1 hi
    obtain ⟨h5, _, _⟩ := tried_some h4
    refine ⟨h5, ?_⟩
    obtain ⟨b, hb, hk⟩ := hnext p hp i h3.1 h3.2
    rw [h5] at hb
    injection hb with hb
    rw [hb]; exact hk
  have hsame' : ∀ p q i u, p < procs dist → q < procs dist → i < localN dist p → u < localN dist q →
      first dist p + i = first dist q + u → p = q ∧ i = u := by
    intro p q i u hp hq hi hu h
    have e : p = q := by rw [← (W.own_at hp hi).1, h]; exact (W.own_at hq hu).1
    subst e
    exact ⟨rfl, by omega⟩
  have hn : (r.map (·.1)).Nodup := by
    show (List.map _ (List.flatMap _ _)).Nodup
    rw [List.map_flatMap, List.nodup_flatMap]
    constructor
    · intro p hp
      rw [List.map_map]
      refine nodup_map_on (hmvn p) fun i hi j hj h => ?_
      have : first dist p + i = first dist p + j := h
      omega
    · refine List.Pairwise.imp_of_mem (R := fun p q => p ≠ q) ?_ (List.nodup_range)
      intro p q hp hq hne x hx hy
      have hp := List.mem_range.1 hp
      have hq := List.mem_range.1 hq
      dsimp only at hx hy
      rw [List.map_map] at hx hy
      obtain ⟨i, hi, h3⟩ := List.mem_map.1 hx
      obtain ⟨j, hj, h4⟩ := List.mem_map.1 hy
      have h5 := ((hmv p i).1 hi).1
      have h6 := ((hmv q j).1 hj).1
      exact hne (hsame' p q i j hp hq (hlt p hp i h5.1 h5.2) (hlt q hq j h6.1 h6.2) (h3.trans h4.symm)).1
  generalize hP' : applyMoves P r = P'
  have hmoved : ∀ p i, p < procs dist → i ∈ mv p → P' (first dist p + i) = target (s p).loc i := by
    intro p i hp hi
    rw [← hP']
    exact applyMoves_moved r P hn ((hrmem _).2 ⟨p, i, hp, hi, rfl⟩)
  have hsame : ∀ p u, p < procs dist → u < localN dist p → u ∉ mv p → P' (first dist p + u) = P (first dist p + u) := by
    intro p u hp hu' h
    rw [← hP']
    refine applyMoves_other r P fun hm => ?_
    obtain ⟨m, hm, h3⟩ := List.mem_map.1 hm
    obtain ⟨q, i, hq, hi, rfl⟩ := (hrmem m).1 hm
    have h4 := ((hmv q i).1 hi).1
    obtain ⟨rfl, rfl⟩ := hsame' q p i u hq hp (hlt q hq i h4.1 h4.2) hu' h3
    exact h hi
  -- the changes of the block weights
  let total : Nat → Int := fun b => ((List.range (procs dist)).map fun p => (at_ p).deltas b).sum
  have htotal : ∀ b, blockWeight dist Wt P' b = blockWeight dist Wt P b + total b := by
    intro b
    rw [← hP', weight_moves Wt r P hn (fun m hm => by
      obtain ⟨p, i, hp, hi, rfl⟩ := (hrmem m).1 hm
      have := ((hmv p i).1 hi).1
      exact (W.own_at hp (hlt p hp i this.1 this.2)).2) b]
    congr 1
    show (List.map _ (List.flatMap _ _)).sum = _
    rw [sum_flatMap_map]
    congr 1
    apply List.map_congr_left
    intro p hp
    have hp := List.mem_range.1 hp
    rw [(h2 p hp).2.1 b, List.map_map]
    congr 1
    apply List.map_congr_left
    intro i hi
    have := ((hmv p i).1 hi).1
    show (if target (s p).loc i = b then _ else _) - (if P (first dist p + i) = b then _ else _) = _
    rw [hown p hp _ (hlt p hp i this.1 this.2)]
  have hok : ∀ p, p < procs dist → (batchFeasible cfg (at_ p).loc.weights total = true ↔ (cfg.ignoreProbabilities = true ∨
      ∀ b, b < cfg.k → ¬ (total b > 0 ∧ blockWeight dist Wt P b + total b > cfg.limit b))) := by
    intro p hp
    unfold batchFeasible
    rw [Bool.or_eq_true]
    refine or_congr Iff.rfl ?_
    rw [List.all_eq_true, (h2 p hp).2.2.1]
    constructor
    · intro h b hb h3
      have := h b (List.mem_range.2 hb)
      rw [hwt p hp b hb, decide_eq_true h3.1, decide_eq_true h3.2] at this
      cases this
    · intro h b hb
      have h3 := h b (List.mem_range.1 hb)
      rw [hwt p hp b (List.mem_range.1 hb)]
      rw [Bool.not_eq_true', Bool.and_eq_false_iff]
      by_cases h4 : total b > 0
      · left; rw [decide_eq_false_iff_not]; exact fun h5 => h3 ⟨h4, h5⟩
      · right; rw [decide_eq_false_iff_not]; exact h4
  unfold batchMoves?
  rw [h1, Option.bind_some]
  by_cases hfeas : cfg.ignoreProbabilities = true ∨ ∀ b, b < cfg.k → ¬ (total b > 0 ∧ blockWeight dist Wt P b + total b > cfg.limit b)
  · right
    refine ⟨_, P', (by
      dsimp only
      rw [if_pos]
      rw [List.all_eq_true]
      intro p hp
      exact (hok p (List.mem_range.1 hp)).2 hfeas), ?_⟩
    refine ⟨fun p hp u hu => ?_, fun p hp l v hlv hge => ?_, fun p hp u hu h => ?_, fun p hp u hu => ?_, fun p hp b hb => ?_,
      fun _ p hp b hb => ?_, ?_, fun hi b hb => ?_, fun _ hi p hp u hu1 hu2 => ?_⟩
    · dsimp only
      by_cases h : u ∈ mv p
      · rw [((h2 p hp).2.2.2.2.2.2.1 u h).1, hmoved p u hp h]
      · rw [(h2 p hp).2.2.2.2.2.2.2.1 u fun i hi e => h (e ▸ hi), hown p hp u hu, hsame p u hp hu h]
    · dsimp only
      rw [(h2 p hp).2.2.2.2.2.2.2.1 l fun i hi e => by
        have h3 := ((hmv p i).1 hi).1
        have := hlt p hp i h3.1 h3.2
        omega]
      exact (hag p hp).1 l v hlv
    · refine hsame p u hp hu fun hm => h ?_
      have h3 := ((hmv p u).1 hm).1
      exact ⟨h3.1, h3.2, ((h2 p hp).2.2.2.2.2.2.1 u hm).2⟩
    · dsimp only
      exact (h2 p hp).2.2.2.2.2.2.2.2 u fun hm => hu ((hmv p u).1 hm).1
    · dsimp only
      rw [(h2 p hp).2.2.1, hwt p hp b hb, htotal b]
    · dsimp only
      rw [(h2 p hp).2.2.1, hwt p hp b hb, htotal b]
    · rw [← hP']
      refine applyMoves_lt r P hP fun m hm => ?_
      obtain ⟨p, i, hp, hi, rfl⟩ := (hrmem m).1 hm
      exact (htarget p i hp hi).2
    · rcases hfeas with h | h
      · rw [hi] at h; cases h
      · have h5 := h b hb
        rw [htotal b]
        by_cases h6 : total b > 0
        · have : ¬ blockWeight dist Wt P b + total b > cfg.limit b := fun h => h5 ⟨h6, h⟩
          omega
        · omega
    · have hu := hlt p hp u hu1 hu2
      by_cases h : u ∈ mv p
      · rw [hmoved p u hp h]; exact (htarget p u hp h).1
      · obtain ⟨b, hb, _⟩ := hnext p hp u hu1 hu2
        rw [hsame p u hp hu h, hb, ← hown p hp u hu]
        by_cases e : b = (s p).loc.part u
        · rw [e]
        · exfalso
          refine h ((hmv p u).2 ⟨⟨hu1, hu2⟩, ?_⟩)
          unfold tried
          rw [hb]
          simp only [Bool.and_eq_true, decide_eq_true_iff]
          refine ⟨e, ?_⟩
          show (cfg.ignoreProbabilities || flip p u) = true
          rw [hi]; rfl
  · left
    have hback : ∀ p, p < procs dist → rollback (fun u => u) (at_ p).loc (at_ p).moves = (s p).loc := by
      intro p hp
      have hms : ((at_ p).moves.map (·.1)) = mv p := by
        rw [(h2 p hp).1, List.map_map]
        exact List.map_id _
      have hmm : ∀ m, m ∈ (at_ p).moves ↔ ∃ i, i ∈ mv p ∧ m = (i, (s p).loc.part i) := by
        intro m
        rw [(h2 p hp).1, List.mem_map]
        exact ⟨fun ⟨i, h, e⟩ => ⟨i, h, e.symm⟩, fun ⟨i, h, e⟩ => ⟨i, h, e.symm⟩⟩
      obtain ⟨b1, b2, b3, b4, b5, b6, b7⟩ := rollback_fold (node := fun u => u) (at_ p).moves (at_ p).loc (by rw [hms]; exact hmvn p)
        (fun m m' _ _ e => e)
      have e1 : (rollback (fun u => u) (at_ p).loc (at_ p).moves).part = (s p).loc.part := by
        funext l
        by_cases h : l ∈ mv p
        · exact (b5 (l, (s p).loc.part l) ((hmm _).2 ⟨l, h, rfl⟩)).1
        · rw [b6 l fun m hm => by
            obtain ⟨i, hi, rfl⟩ := (hmm m).1 hm
            exact fun e => h (e ▸ hi)]
          exact (h2 p hp).2.2.2.2.2.2.2.1 l fun i hi e => h (e ▸ hi)
      have e2 : (rollback (fun u => u) (at_ p).loc (at_ p).moves).next = (s p).loc.next := by
        funext i
        by_cases hi : i ∈ mv p
        · have := (b5 (i, (s p).loc.part i) ((hmm _).2 ⟨i, hi, rfl⟩)).2
          rw [show (rollback (fun u => u) (at_ p).loc (at_ p).moves).next i = some ((at_ p).loc.part i) from this,
            ((h2 p hp).2.2.2.2.2.2.1 i hi).1]
          exact (htarget p i hp hi).1.symm
        · rw [b7 i (by rw [hms]; exact hi)]
          exact (h2 p hp).2.2.2.2.2.2.2.2 i hi
      have e3 := b1.trans (h2 p hp).2.2.1
      have e4 := b2.trans (h2 p hp).2.2.2.1
      have e5 := b3.trans (h2 p hp).2.2.2.2.1
      have e6 := b4.trans (h2 p hp).2.2.2.2.2.1
      generalize rollback (fun u => u) (at_ p).loc (at_ p).moves = x at e1 e2 e3 e4 e5 e6
      cases x
      cases hsp : (s p).loc
      rw [hsp] at e1 e2 e3 e4 e5 e6
      simp only at e1 e2 e3 e4 e5 e6
      subst e1 e2 e3 e4 e5 e6
      rfl
    refine ⟨fun p => ⟨rollback (fun u => u) (at_ p).loc (at_ p).moves, (at_ p).loc.weights⟩, ?_, ?_, fun p hp => ⟨hback p hp, (h2 p hp).2.2.1⟩⟩
    · dsimp only
      rw [if_neg, if_pos]
      · rw [List.all_eq_true]
        intro p hp
        rw [Bool.not_eq_true', ← Bool.not_eq_true]
        exact fun h => hfeas ((hok p (List.mem_range.1 hp)).1 h)
      · rw [List.all_eq_true]
        intro h
        exact hfeas ((hok 0 W.some_process).1 (h 0 (List.mem_range.2 W.some_process)))
    · rw [not_or, Bool.not_eq_true] at hfeas
      exact hfeas.1

theorem World.batch_attempts (W : World dist inp g) (hW : HasWeights dist inp Wt) (hub : ∀ p, p < procs dist → ub p ≤ localN dist p)
    (flip : Nat → Nat → Nat → Bool) (hP : ∀ a, a < globalN dist → P a < cfg.k) : ∀ (m t : Nat) (s : Nat → BatchState) (did : Prop),
    Agree dist g Wt cfg.k (fun p => (s p).loc.part) (fun p => (s p).loc.weights) P →
    (∀ p, p < procs dist → ∀ u, fr p ≤ u → u < ub p → ∃ b, (s p).loc.next u = some b ∧ b < cfg.k) →
    (did → cfg.ignoreProbabilities = false) → (did → ∀ p, p < procs dist → ∀ b, b < cfg.k → (s p).tracked b = blockWeight dist Wt P b) →
    ∃ s' P', batchAttempts? (procs dist) cfg g fr ub flip m t s = some s' ∧ Executed dist g Wt cfg fr ub P s (did ∨ 0 < m) P' s'
  | 0, t, s, did, hag, hnext, hd, ht => by
    refine ⟨s, P, rfl, fun p hp u hu => (hag p hp).1 _ _ ((W.represents p hp).own u hu), fun p hp l v hl _ => (hag p hp).1 l v hl,
      fun _ _ _ _ _ => rfl, fun _ _ _ _ => rfl, fun p hp => (hag p hp).2, fun h => ht (h.resolve_right (by omega)), hP,
      fun _ b _ => Int.le_max_left .., fun h hi => ?_⟩
    rw [hd (h.resolve_right (by omega))] at hi
    cases hi
  | m + 1, t, s, did, hag, hnext, hd, ht => by
    unfold batchAttempts?
    rcases W.batch_moves hW hub (flip t) hag hP hnext with ⟨s1, h1, h2, h3⟩ | ⟨s1, P1, h1, h2⟩
    · rw [h1, Option.bind_some, if_neg (show ¬ false = true by decide)]
      obtain ⟨s', P', h4, h5⟩ := W.batch_attempts hW hub flip hP m (t + 1) s1 True
        (fun p hp => by
          have := hag p hp
          dsimp only at this ⊢
          rw [(h3 p hp).1]; exact this)
        (fun p hp u => by rw [(h3 p hp).1]; exact hnext p hp u) (fun _ => h2)
        (fun _ p hp b hb => by rw [(h3 p hp).2]; exact (hag p hp).2 b hb)
      refine ⟨s', P', h4, h5.own, h5.ghost, h5.mark, fun p hp u hu => ?_, h5.weights, fun _ => h5.tracked (Or.inl trivial), h5.blocks, h5.limit,
        fun _ hi => ?_⟩
      · rw [h5.outside p hp u hu, (h3 p hp).1]
      · rw [h2] at hi; cases hi
    · rw [h1, Option.bind_some, if_pos rfl]
      exact ⟨s1, P1, rfl, h2.own, h2.ghost, h2.mark, h2.outside, h2.weights, fun _ => h2.tracked trivial, h2.blocks, h2.limit,
        fun _ => h2.all trivial⟩

end Verif.Dist
