import Verif.Dist.ColoredLPOrder

/-!
# C77: the coloured label propagation improves a partition
-/

namespace Verif.Dist
open Verif

variable {dist : List Nat} {inp : Nat → Input} {g : Nat → DGraph} {P : Nat → Nat} {Wt : Nat → Int} {cfg : LPConfig} {ord : ColorOrder}
variable {part : Nat → Nat → Nat} {weights : Nat → Nat → Int}

/-- **C77**, the refinement of a graph whose nodes are sorted by colours.  Whatever the threads do, whichever moves the random numbers
prefer, and whichever colours are left out: all processes end with the same partition and know its block weights.  The cut is not larger
than before, and the sum of the gains is the change of the cut.  A block is only too heavy if it was at least as heavy before; this is not
guaranteed by local moves and by best moves on one process. -/
theorem C77_refinement (I : LPInput dist inp g Wt) (O : ord.Ok dist inp) (hcfg : cfg.Ok (procs dist)) (excluded : Nat → Bool)
    (sch : Nat → Nat → PhaseSchedule) (hsch : ∀ t c, (sch t c).Ok dist ord c) (hA : Agree dist g Wt cfg.k part weights P)
    (hP : ∀ a, a < globalN dist → P a < cfg.k) :
    ∃ r P', lpRefine? (procs dist) cfg g ord excluded sch part weights = some r ∧
      Agree dist g Wt cfg.k (fun p => (r p).part) (fun p => (r p).weights) P' ∧ (∀ a, a < globalN dist → P' a < cfg.k) ∧
      cut dist inp P' ≤ cut dist inp P ∧ cut dist inp P - cut dist inp P' = ((List.range (procs dist)).map fun p => (r p).gained).sum ∧
      (cfg.Balanced (procs dist) → ∀ b, b < cfg.k → blockWeight dist Wt P' b ≤ max (blockWeight dist Wt P b) (cfg.limit b)) := by
  have S : Start dist g Wt cfg ord P fun p => ⟨part p, weights p, fun i => some (part p (ord.node p i)), fun _ => 0, fun _ => 0, 0⟩ := by
    refine ⟨hA, hP, fun p hp i hi => ?_, fun _ _ _ _ => rfl⟩
    dsimp only
    rw [(hA p hp).1 _ _ ((I.world.represents p hp).own _ (O.lt p hp i hi))]
  obtain ⟨r, P', h1, h2, h3⟩ := I.iterations hcfg O excluded hsch cfg.iterations 0 P _ S
  refine ⟨r, P', h1, h2.agree, h2.blocks, h3.le, ?_, h3.weights⟩
  have e : totalGain dist (fun p => (⟨part p, weights p, fun i => some (part p (ord.node p i)), fun _ => 0, fun _ => 0, 0⟩ : LPLocal)) = 0 :=
    sum_map_zero _
  have := h3.gain
  rw [e] at this
  show _ = totalGain dist r
  omega

/-- **C77**, the whole refiner: it colours the nodes, sorts them by colours, and refines the partition.  Each process must have a
node.  The order of the nodes contains each node of each process once, and each node is in a colour class. -/
theorem C77_colored_label_propagation (I : LPInput dist inp g Wt) (hne : ∀ p, p < procs dist → 0 < localN dist p) {S : Nat} (hS : 0 < S)
    (csch : Nat → Nat → ColorSchedule) (hc : ∀ t i, i < S → (csch t i).Ok dist S i) (fuel : Nat) (hf : 2 * globalN dist + 2 ≤ fuel)
    (order : Nat → List Nat) (ho : ∀ p, p < procs dist → (order p).Perm (List.range (localN dist p))) :
    ∃ ord, ((nodeColoring? (procs dist) g S csch fuel).bind fun x => colorOrder? (procs dist) g x.1 order) = some ord ∧ ord.Ok dist inp ∧
      (∀ p, p < procs dist → ∀ i, i < localN dist p → ∃ c, c < ord.colors ∧ ord.start p c ≤ i ∧ i < ord.start p (c + 1)) ∧
      ∀ (cfg : LPConfig) (excluded : Nat → Bool) (sch : Nat → Nat → PhaseSchedule) (part : Nat → Nat → Nat) (weights : Nat → Nat → Int)
        (P : Nat → Nat), cfg.Ok (procs dist) → (∀ t c, (sch t c).Ok dist ord c) → Agree dist g Wt cfg.k part weights P →
        (∀ a, a < globalN dist → P a < cfg.k) →
        ∃ r P', coloredLP? (procs dist) cfg g S csch fuel order excluded sch part weights = some r ∧
          Agree dist g Wt cfg.k (fun p => (r p).part) (fun p => (r p).weights) P' ∧ (∀ a, a < globalN dist → P' a < cfg.k) ∧
          cut dist inp P' ≤ cut dist inp P ∧
          cut dist inp P - cut dist inp P' = ((List.range (procs dist)).map fun p => (r p).gained).sum ∧
          (cfg.Balanced (procs dist) → ∀ b, b < cfg.k → blockWeight dist Wt P' b ≤ max (blockWeight dist Wt P b) (cfg.limit b)) := by
  have hirr : ∀ a, ¬ IsEdge dist inp a a := fun a h => by
    obtain ⟨w, hw⟩ := (isEdge_edges I.world.valid).1 h
    exact I.loopFree _ hw rfl
  obtain ⟨color, h1, _, h3⟩ := C75_node_coloring I.world I.symmetric hirr hS
  obtain ⟨arr, h4, h5⟩ := h3 csch hc fuel hf
  obtain ⟨ord, h6, h7, h8⟩ := I.world.color_order h1 hne h5 ho
  refine ⟨ord, by rw [h4]; exact h6, h7, fun p hp i hi => ?_, fun cfg excluded sch part weights P hcfg hsch hA hP => ?_⟩
  · obtain ⟨c, a1, a2, a3, _⟩ := h8 p hp i hi
    exact ⟨c, a1, a2, a3⟩
  · obtain ⟨r, P', a1, a2⟩ := C77_refinement I h7 hcfg excluded sch hsch hA hP
    refine ⟨r, P', ?_, a2⟩
    unfold coloredLP?
    rw [h4, Option.bind_some]
    dsimp only
    rw [if_pos rfl, h6, Option.bind_some]
    exact a1

/-- **C77**, a process without nodes: the number of colours is the maximum of an empty range. -/
theorem C77_empty_process (W : World dist inp g) {p : Nat} (hp : p < procs dist) (h : localN dist p = 0) (col : Nat → Nat → Nat)
    (order : Nat → List Nat) : colorOrder? (procs dist) g col order = none := by
  have hf : foreign dist p (inp p) = [] := by
    apply List.eq_nil_iff_forall_not_mem.2
    intro v hv
    obtain ⟨h1, h2⟩ := (W.foreign_mem hp).1 hv
    have h3 := (W.valid p hp).xadj_last
    rw [h, (W.valid p hp).xadj_zero] at h3
    exact absurd (List.length_pos_of_mem h1) (by omega)
  have ht : (g p).totalN = 0 := by rw [(W.represents p hp).total, hf, h]; rfl
  have : ((List.range (procs dist)).mapM fun p => localColors? (g p).totalN (col p)) = none := by
    cases hm : ((List.range (procs dist)).mapM fun p => localColors? (g p).totalN (col p)) with
    | none => rfl
    | some l =>
      exfalso
      obtain ⟨y, _, hy⟩ := (mapM_mem hm).1 p (List.mem_range.2 hp)
      rw [ht] at hy
      cases hy
  unfold colorOrder?
  rw [this]
  rfl

/-- **C77**, best moves without `track_local_block_weights`: with at least two processes, the reduction writes to an empty array. -/
theorem C77_untracked_best_moves (W : World dist inp g) (h2 : 2 ≤ procs dist) (ht : cfg.track = false) (hk : 0 < cfg.k)
    (node fr ub : Nat → Nat → Nat) (c : Nat) (sort sort' : Nat → List Candidate → List Candidate) (s : Nat → LPLocal) :
    bestMoves? (procs dist) cfg g node fr ub c sort sort' s = none := by
  unfold bestMoves?
  by_cases hN : 2 ^ Nat.log2 (procs dist) = procs dist
  · rw [if_pos hN]
    cases hl : forAll? (procs dist) [] fun p => (candidates? (g p) (node p) (fr p c) (ub p c) (s p)).map (sort p) with
    | none => rfl
    | some l =>
      rw [Option.bind_some]
      have hred : reduceCandidates? cfg (fun p => (s p).weights) sort' (Nat.log2 (procs dist)) l = none := by
        cases hj : Nat.log2 (procs dist) with
        | zero => rw [hj] at hN; simp at hN; omega
        | succ j =>
          have hm : ∀ a b, mergeCandidates? cfg (s 0).weights (sort' 0) a b = none := fun a b =>
            if_neg (by rw [ht]; intro h; rcases h with h | h; · exact Bool.false_ne_true h
                       · omega)
          have hf : (forAll? (2 ^ j) [] fun p => mergeCandidates? cfg (s p).weights (sort' p) (l p) (l (p + 2 ^ j))) = none := by
            unfold forAll?
            cases hx : (List.range (2 ^ j)).mapM fun p => mergeCandidates? cfg (s p).weights (sort' p) (l p) (l (p + 2 ^ j)) with
            | none => rfl
            | some y =>
              obtain ⟨z, _, hz⟩ := (mapM_mem hx).1 0 (List.mem_range.2 (Nat.two_pow_pos j))
              rw [hm] at hz
              cases hz
          unfold reduceCandidates?
          rw [hf]
          rfl
      rw [hred]
      rfl
  · rw [if_neg hN]

theorem pick_fits {own : Nat} {fits coin : Nat → Bool} : ∀ (es : List (Nat × Int)) (s : Int × Nat), (s.2 ≠ own → fits s.2 = true) →
    (es.foldl (pickBlock own fits coin) s).2 ≠ own → fits (es.foldl (pickBlock own fits coin) s).2 = true
  | [], _, h => h
  | e :: es, s, h => by
    rw [List.foldl_cons]
    refine pick_fits es _ fun h' => ?_
    unfold pickBlock at h' ⊢
    by_cases h1 : e.1 ≠ own ∧ fits e.1 = false
    · rw [if_pos h1] at h' ⊢
      exact h h'
    · rw [if_neg h1] at h' ⊢
      by_cases h2 : e.2 > s.1 ∨ (e.2 = s.1 ∧ coin e.1 = true)
      · rw [if_pos h2] at h' ⊢
        cases hf : fits e.1 with
        | true => rfl
        | false => exact absurd ⟨h', hf⟩ h1
      · rw [if_neg h2] at h' ⊢
        exact h h'

/-- **C77**, a move is only found if its target has room: the weight of the block, with the changes that the thread sees if block weights
are tracked, and the weight of the node is at most the limit. -/
theorem C77_found_move_fits {d : DGraph} {node : Nat → Nat} {ch : FindChoice} {blocks : Nat → Nat} {bw : Nat → Int} {i b : Nat} {gain w : Int}
    (h : findMove? cfg d node ch blocks bw i = some (some (b, gain))) (hw : d.nodeWeight? (node i) = some w) :
    b ≠ blocks (node i) ∧ bw b + (if cfg.track then ch.seen i b else 0) + w ≤ cfg.limit b := by
  unfold findMove? at h
  by_cases hs : ch.skip i = true
  · rw [if_pos hs] at h
    cases h
  rw [if_neg hs] at h
  obtain ⟨adj, _, h⟩ := Option.bind_eq_some_iff.1 h
  rw [hw, Option.bind_some] at h
  obtain ⟨es, _, h⟩ := Option.bind_eq_some_iff.1 h
  obtain ⟨own, _, h⟩ := Option.map_eq_some_iff.1 h
  dsimp only at h
  split at h
  · rename_i hb
    injection h with h
    injection h with h3 h4
    have := pick_fits (fits := fitsBlock cfg bw (ch.seen i) w) (coin := ch.coin i) es (-B32, blocks (node i)) (fun h => absurd rfl h) hb
    rw [h3] at hb this
    refine ⟨hb, ?_⟩
    unfold fitsBlock at this
    cases ht : cfg.track with
    | true =>
      rw [ht, if_pos rfl, Bool.not_eq_true', decide_eq_false_iff_not] at this
      rw [if_pos rfl]; omega
    | false =>
      rw [ht, if_neg (show ¬ false = true by decide), Bool.not_eq_true', decide_eq_false_iff_not] at this
      rw [if_neg (show ¬ false = true by decide)]; omega
  · cases h

/-- **C77**, one thread that tracks block weights: the moves that a process finds for one colour together make no block too heavy. -/
theorem C77_found_moves_fit {d : DGraph} {node : Nat → Nat} {ch : FindChoice} {fr ub n : Nat} {s r : LPLocal} (ht : cfg.track = true)
    (hw : ∀ u w, d.nodeWeight? u = some w → 0 ≤ w)
    (hseq : ∀ l1 i l2, List.range' fr (ub - fr) = l1 ++ i :: l2 → ∀ t, l1.foldlM (findStep? cfg d node ch) (s, 0) = some t → ch.seen i = t.1.deltas)
    (h : lpFind? cfg d node fr ub ch s = some (r, n)) :
    r.part = s.part ∧ r.weights = s.weights ∧ ∀ b, s.weights b + r.deltas b ≤ max (s.weights b + s.deltas b) (cfg.limit b) := by
  have key : ∀ (l2 l1 : List Nat) (t : LPLocal × Nat), List.range' fr (ub - fr) = l1 ++ l2 → l1.foldlM (findStep? cfg d node ch) (s, 0) = some t →
      (t.1.part = s.part ∧ t.1.weights = s.weights ∧ ∀ b, s.weights b + t.1.deltas b ≤ max (s.weights b + s.deltas b) (cfg.limit b)) →
      l2.foldlM (findStep? cfg d node ch) t = some (r, n) →
      r.part = s.part ∧ r.weights = s.weights ∧ ∀ b, s.weights b + r.deltas b ≤ max (s.weights b + s.deltas b) (cfg.limit b) := by
    intro l2
    induction l2 with
    | nil =>
      intro l1 t _ _ hI hr
      injection hr with hr
      subst hr
      exact hI
    | cons i l2 ih =>
      intro l1 t he h1 hI hr
      rw [List.foldlM_cons] at hr
      obtain ⟨t', h2, h3⟩ := Option.bind_eq_some_iff.1 hr
      have h4 : (l1 ++ [i]).foldlM (findStep? cfg d node ch) (s, 0) = some t' := by
        rw [List.foldlM_append, h1]
        show List.foldlM (findStep? cfg d node ch) t [i] = _
        rw [List.foldlM_cons, h2]
        rfl
      refine ih (l1 ++ [i]) t' (by rw [he, List.append_assoc]; rfl) h4 ?_ h3
      have hsi := hseq l1 i l2 he t h1
      unfold findStep? at h2
      obtain ⟨m, h5, h6⟩ := Option.bind_eq_some_iff.1 h2
      cases m with
      | none =>
        injection h6 with h6
        subst h6
        exact hI
      | some m =>
        obtain ⟨b, gain⟩ := m
        obtain ⟨w, h7, h8⟩ := Option.map_eq_some_iff.1 h6
        obtain ⟨h9, h10⟩ := C77_found_move_fits h5 h7
        rw [ht, if_pos rfl, hsi, hI.2.1] at h10
        have hw0 := hw _ _ h7
        subst h8
        refine ⟨hI.1, hI.2.1, fun b' => ?_⟩
        dsimp only
        rw [ht, if_pos rfl, bump_two]
        have := hI.2.2 b'
        by_cases e1 : b = b'
        · subst e1
          rw [if_pos rfl, if_neg (Ne.symm h9)]
          omega
        · rw [if_neg e1]
          by_cases e2 : t.1.part (node i) = b'
          · rw [if_pos e2]; omega
          · rw [if_neg e2]; omega
  exact key _ [] (s, 0) rfl rfl ⟨rfl, rfl, fun _ => Int.le_max_left ..⟩ h

/-! ## Examples and counterexamples -/

/-- The graphs that the import creates. -/
def imported (dist : List Nat) (inp : Nat → Input) (p : Nat) : DGraph :=
  (import? dist p (inp p) (List.range (inp p).adjncy.length) id).getD ⟨0, [], [], [], [], [], [], [], []⟩

theorem world_imported (h0 : 0 < procs dist) (hv : ∀ p, p < procs dist → Valid dist p (inp p))
    (hf : ∀ p, p < procs dist → Fits dist p (inp p)) : World dist inp (imported dist inp) := by
  refine ⟨h0, hv, fun p hp => ?_⟩
  obtain ⟨gp, h1, h2⟩ := C64_import_partial (hv p hp) (hf p hp) (List.range (inp p).adjncy.length) (List.Perm.refl _) id
    (fun l => List.Perm.refl l)
  unfold imported
  rw [h1]
  exact h2

/-- One thread executes the loops in their order. -/
def plainSync (fr ub : Nat → Nat) : SyncSchedule :=
  ⟨fun p => ⟨1, (List.range 1).flatMap fun t => (threadIterations 1 (fr p) (ub p) t).map fun i => (t, i),
    (List.range 1).flatMap fun t => (threadIterations 1 (fr p) (ub p) t).map fun i => (t, i)⟩, fun _ l => l⟩

theorem plainSync_ok (fr ub : Nat → Nat) : (plainSync fr ub).Ok dist fr ub :=
  ⟨fun p _ => ⟨Nat.one_pos, schedule_exists 1 (fr p) (ub p) Nat.one_pos, schedule_exists 1 (fr p) (ub p) Nat.one_pos⟩,
    fun _ l => List.Perm.refl l⟩

/-- All nodes are handled, ties are not random, every move is tried, and nodes do not see the moves that were found before. -/
def plainPhase (ord : ColorOrder) (c : Nat) : PhaseSchedule :=
  ⟨fun _ => ⟨fun _ => false, fun _ _ => 0, fun _ l => l, fun _ _ => false⟩,
    fun _ => ⟨fun _ _ _ => true, fun _ => plainSync (fun p => ord.start p c) (fun p => ord.start p (c + 1)), fun _ l => l, fun _ l => l⟩⟩

theorem plainPhase_ok (ord : ColorOrder) (c : Nat) : (plainPhase ord c).Ok dist ord c :=
  ⟨fun _ _ l => List.Perm.refl l, fun _ => ⟨fun _ => plainSync_ok _ _, fun _ l => List.Perm.refl l, fun _ l => List.Perm.refl l⟩⟩

/-- The blocks and block weights that the processes know. -/
def knownPart (g : Nat → DGraph) (P : Nat → Nat) (p l : Nat) : Nat := P (((g p).localToGlobal? l).getD 0)

theorem known_agree (g : Nat → DGraph) (P : Nat → Nat) (k : Nat) : Agree dist g Wt k (knownPart g P) (fun _ => blockWeight dist Wt P) P := by
  intro p _
  refine ⟨fun l v hl => ?_, fun b _ => rfl⟩
  show P (((g p).localToGlobal? l).getD 0) = _
  rw [hl]
  rfl

/-- A star: the nodes 0 and 1 are neighbours of node 2.  All nodes belong to one process. -/
def star1 : Nat → Input := fun _ => ⟨[0, 1, 2, 4], [2, 2, 0, 1], [], []⟩

/-- The same star on two processes: node 0 belongs to the first one. -/
def star2 : Nat → Input := fun p => if p = 0 then ⟨[0, 1], [2], [], []⟩ else ⟨[0, 1, 3], [2, 0, 1], [], []⟩

/-- The leaves of the star are in block 0, its centre is in block 1. -/
def leaves (a : Nat) : Nat := if a = 2 then 1 else 0

def order1 : ColorOrder := ⟨2, fun _ c => [0, 2, 3].getD c 0, fun _ i => i⟩
def order2 : ColorOrder := ⟨2, fun p c => if p = 0 then [0, 1, 1].getD c 0 else [0, 1, 2].getD c 0, fun _ i => i⟩

theorem star1_input : LPInput [0, 3] star1 (imported [0, 3] star1) (fun _ => 1) where
  world := world_imported (by decide)
    (fun p hp => by
      have : p = 0 := by have : p < 1 := hp; omega
      subst this
      exact ⟨by decide, by decide, by decide, by decide, by decide, by decide, by decide, by decide, by decide, by decide, by decide⟩)
    (fun p hp => by
      have : p = 0 := by have : p < 1 := hp; omega
      subst this
      exact ⟨by decide, by decide, fun w hw => by
        have : w ∈ ([] : List Int) ∨ w ∈ ([] : List Int) := hw
        simp at this, Or.inl rfl⟩)
  undirected := by unfold Undirected; decide
  loopFree := by unfold LoopFree; decide
  fits := by unfold SmallDegrees; decide
  edges := by unfold NonnegEdges; decide
  weights := by unfold HasWeights; decide
  nonneg := by decide

theorem star2_input : LPInput [0, 1, 3] star2 (imported [0, 1, 3] star2) (fun _ => 1) where
  world := world_imported (by decide)
    (fun
      | 0, _ => ⟨by decide, by decide, by decide, by decide, by decide, by decide, by decide, by decide, by decide, by decide, by decide⟩
      | 1, _ => ⟨by decide, by decide, by decide, by decide, by decide, by decide, by decide, by decide, by decide, by decide, by decide⟩)
    (fun
      | 0, _ => ⟨by decide, by decide, fun w hw => by
          have : w ∈ ([] : List Int) ∨ w ∈ ([] : List Int) := hw
          simp at this, Or.inl rfl⟩
      | 1, _ => ⟨by decide, by decide, fun w hw => by
          have : w ∈ ([] : List Int) ∨ w ∈ ([] : List Int) := hw
          simp at this, Or.inl rfl⟩)
  undirected := by unfold Undirected; decide
  loopFree := by unfold LoopFree; decide
  fits := by unfold SmallDegrees; decide
  edges := by unfold NonnegEdges; decide
  weights := by unfold HasWeights; decide
  nonneg := by decide

theorem not_edge {dist : List Nat} {inp : Nat → Input} {a b : Nat} (h : ∀ e, e ∈ edges dist inp → ¬ (e.1 = a ∧ e.2.1 = b)) (w : Int) :
    (a, b, w) ∉ edges dist inp := fun hw => h _ hw ⟨rfl, rfl⟩

theorem order1_ok : order1.Ok [0, 3] star1 where
  bound := by decide
  lt := fun _ _ _ h => h
  inj := fun _ _ _ _ _ _ h => h
  apart := by
    intro c hc p q hp hq i j h1 h2 h3 h4
    have hp : p = 0 := by have : p < 1 := hp; omega
    have hq : q = 0 := by have : q < 1 := hq; omega
    subst hp hq
    apply not_edge
    have hc : c = 0 ∨ c = 1 := by have : c < 2 := hc; omega
    rcases hc with rfl | rfl
    · have key : ∀ i, i < 2 → ∀ j, j < 2 → ∀ e, e ∈ edges [0, 3] star1 → ¬ (e.1 = first [0, 3] 0 + i ∧ e.2.1 = first [0, 3] 0 + j) := by decide
      exact key i h2 j h4
    · have h2 : i < 3 := h2
      have h4 : j < 3 := h4
      have h1 : 2 ≤ i := h1
      have h3 : 2 ≤ j := h3
      have hi : i = 2 := by omega
      have hj : j = 2 := by omega
      subst hi hj
      decide

set_option synthInstance.maxSize 2000 in
set_option synthInstance.maxHeartbeats 200000 in
theorem order2_ok : order2.Ok [0, 1, 3] star2 where
  bound := by decide
  lt := fun _ _ _ h => h
  inj := fun _ _ _ _ _ _ h => h
  apart := by
    have key : ∀ c, c < 2 → ∀ p, p < 2 → ∀ q, q < 2 → ∀ i, i < 2 → ∀ j, j < 2 → order2.start p c ≤ i ∧ i < order2.start p (c + 1) ∧
        order2.start q c ≤ j ∧ j < order2.start q (c + 1) →
        (edges [0, 1, 3] star2).all (fun e => decide (¬ (e.1 = first [0, 1, 3] p + i ∧ e.2.1 = first [0, 1, 3] q + j))) = true := by decide
    have hs : ∀ c, c < 2 → ∀ p, p < 2 → order2.start p (c + 1) ≤ 2 := by decide
    intro c hc p q hp hq i j h1 h2 h3 h4 w
    have b1 := hs c hc p hp
    have b2 := hs c hc q hq
    exact not_edge (fun e he => of_decide_eq_true (List.all_eq_true.1 (key c hc p hp q hq i (by omega) j (by omega) ⟨h1, h2, h3, h4⟩) e he)) w

/-- The hypotheses of the theorems are met by the star on two processes. -/
example : LPInput [0, 1, 3] star2 (imported [0, 1, 3] star2) (fun _ => 1) ∧ order2.Ok [0, 1, 3] star2 ∧
    (⟨2, fun _ => 2, .best, 5, 1, 2, true⟩ : LPConfig).Ok 2 ∧ (⟨2, fun _ => 2, .best, 5, 1, 2, true⟩ : LPConfig).Balanced 2 ∧
    (∀ t c, ((fun _ c => plainPhase order2 c : Nat → Nat → PhaseSchedule) t c).Ok [0, 1, 3] order2 c) ∧
    Agree [0, 1, 3] (imported [0, 1, 3] star2) (fun _ => 1) 2 (knownPart (imported [0, 1, 3] star2) leaves)
      (fun _ => blockWeight [0, 1, 3] (fun _ => 1) leaves) leaves ∧ (∀ a, a < 3 → leaves a < 2) ∧
    (∀ p, p < procs [0, 1, 3] → 0 < localN [0, 1, 3] p) ∧ ∃ csch : Nat → Nat → ColorSchedule, ∀ t i, i < 1 → (csch t i).Ok [0, 1, 3] 1 i :=
  ⟨star2_input, order2_ok, ⟨fun _ => ⟨rfl, by decide⟩, by decide⟩, ⟨by decide, fun _ => by decide⟩, fun _ c => plainPhase_ok order2 c,
    known_agree _ _ _, by decide, by decide, fun _ i => ⟨fun p => ⟨2, _, _⟩, fun _ => List.reverse⟩, fun _ i hi =>
      ⟨fun _ l => List.reverse_perm l, _, _, fun p _ => Math.localRange_eq (by decide) hi,
        fun p _ => ⟨Nat.succ_pos 1, schedule_exists 2 _ _ (by decide), schedule_exists 2 _ _ (by decide)⟩⟩⟩

/-- What is known of a result: the blocks and the block weights on the first process, and the sum of all gains. -/
def summary (N n k : Nat) (r : Option (Nat → LPLocal)) : Option (List Nat × List Int × Int) :=
  r.map fun r => ((List.range n).map (r (N - 1)).part, (List.range k).map (r (N - 1)).weights, ((List.range N).map fun p => (r p).gained).sum)

/-- One thread on one process finds a move for the first leaf only: the second one would make block 1 too heavy. -/
example : (lpFind? ⟨2, fun _ => 2, .best, 1, 1, 0, true⟩ (imported [0, 3] star1 0) (fun u => u) 0 2
      ⟨fun _ => false, fun i b => if i = 0 then 0 else if b = 1 then 1 else -1, fun _ l => l, fun _ _ => false⟩
      ⟨leaves, blockWeight [0, 3] (fun _ => 1) leaves, fun u => some (leaves u), fun _ => 0, fun _ => 0, 0⟩).map
        (fun r => (r.2, (List.range 3).map r.1.next, (List.range 2).map r.1.deltas)) = some (1, [some 1, some 0, some 1], [-1, 1]) := by
  decide +kernel

/-- Best moves on two processes: only one of the two leaves is moved, since both would make block 1 too heavy. -/
example : summary 2 3 2 (lpRefine? 2 ⟨2, fun _ => 2, .best, 1, 1, 0, true⟩ (imported [0, 1, 3] star2) order2 (fun _ => false)
      (fun _ c => plainPhase order2 c) (knownPart (imported [0, 1, 3] star2) leaves) fun _ => blockWeight [0, 1, 3] (fun _ => 1) leaves) =
    some ([0, 1, 1], [1, 2], 1) := by decide +kernel

/-- Probabilistic moves: both leaves are rejected. -/
example : summary 2 3 2 (lpRefine? 2 ⟨2, fun _ => 2, .probabilistic, 1, 1, 2, true⟩ (imported [0, 1, 3] star2) order2 (fun c => decide (c = 1))
      (fun _ c => plainPhase order2 c) (knownPart (imported [0, 1, 3] star2) leaves) fun _ => blockWeight [0, 1, 3] (fun _ => 1) leaves) =
    some ([0, 1, 0], [2, 1], 0) := by decide +kernel

/-- Probabilistic moves with a larger limit: both leaves are moved. -/
example : summary 2 3 2 (lpRefine? 2 ⟨2, fun _ => 3, .probabilistic, 1, 1, 2, true⟩ (imported [0, 1, 3] star2) order2 (fun _ => false)
      (fun _ c => plainPhase order2 c) (knownPart (imported [0, 1, 3] star2) leaves) fun _ => blockWeight [0, 1, 3] (fun _ => 1) leaves) =
    some ([1, 1, 1], [0, 3], 2) := by decide +kernel

/-- The whole refiner on this graph. -/
example : summary 2 3 2 (coloredLP? 2 ⟨2, fun _ => 2, .best, 1, 1, 0, true⟩ (imported [0, 1, 3] star2) 1
      (fun _ _ => ⟨fun p => if p = 0 then ⟨1, [(0, 0)], [(0, 0)]⟩ else ⟨1, [(0, 0), (0, 1)], [(0, 0), (0, 1)]⟩, fun _ l => l⟩) 8
      (fun p => if p = 0 then [0] else [1, 0]) (fun _ => false)
      (fun _ c => plainPhase order2 c) (knownPart (imported [0, 1, 3] star2) leaves) fun _ => blockWeight [0, 1, 3] (fun _ => 1) leaves) =
    some ([0, 1, 1], [1, 2], 1) := by decide +kernel

/-- **C77**, best moves on one process are not checked again: if two threads find moves to the same block at the same time, it becomes
heavier than its limit, although no block was too heavy before. -/
theorem C77_one_process_overload : ∃ (dist : List Nat) (inp : Nat → Input) (g : Nat → DGraph) (Wt : Nat → Int) (ord : ColorOrder)
    (cfg : LPConfig) (sch : Nat → Nat → PhaseSchedule) (P : Nat → Nat) (part : Nat → Nat → Nat) (weights : Nat → Nat → Int)
    (r : Nat → LPLocal), LPInput dist inp g Wt ∧ ord.Ok dist inp ∧ cfg.Ok (procs dist) ∧ cfg.strategy = .best ∧
      (∀ t c, (sch t c).Ok dist ord c) ∧ Agree dist g Wt cfg.k part weights P ∧ (∀ a, a < globalN dist → P a < cfg.k) ∧
      (∀ b, b < cfg.k → blockWeight dist Wt P b ≤ cfg.limit b) ∧
      lpRefine? (procs dist) cfg g ord (fun _ => false) sch part weights = some r ∧ cfg.limit 1 < (r 0).weights 1 := by
  have h : (lpRefine? 1 ⟨2, fun _ => 2, .best, 1, 1, 0, true⟩ (imported [0, 3] star1) order1 (fun _ => false) (fun _ c => plainPhase order1 c)
      (knownPart (imported [0, 3] star1) leaves) fun _ => blockWeight [0, 3] (fun _ => 1) leaves).map (fun r => (r 0).weights 1) = some 3 := by
    decide +kernel
  obtain ⟨r, h1, h2⟩ := Option.map_eq_some_iff.1 h
  exact ⟨[0, 3], star1, imported [0, 3] star1, fun _ => 1, order1, ⟨2, fun _ => 2, .best, 1, 1, 0, true⟩, fun _ c => plainPhase order1 c, leaves,
    _, _, r, star1_input, order1_ok, ⟨fun _ => ⟨rfl, by decide⟩, by decide⟩, rfl, fun _ c => plainPhase_ok order1 c, known_agree _ _ _,
    by decide, by decide +kernel, h1, by rw [h2]; decide⟩

/-- **C77**, local moves of different processes together make a block too heavy. -/
theorem C77_local_moves_overload : ∃ (dist : List Nat) (inp : Nat → Input) (g : Nat → DGraph) (Wt : Nat → Int) (ord : ColorOrder)
    (cfg : LPConfig) (sch : Nat → Nat → PhaseSchedule) (P : Nat → Nat) (part : Nat → Nat → Nat) (weights : Nat → Nat → Int)
    (r : Nat → LPLocal), LPInput dist inp g Wt ∧ ord.Ok dist inp ∧ cfg.Ok (procs dist) ∧ cfg.strategy = .locally ∧
      (∀ t c, (sch t c).Ok dist ord c) ∧ Agree dist g Wt cfg.k part weights P ∧ (∀ a, a < globalN dist → P a < cfg.k) ∧
      (∀ b, b < cfg.k → blockWeight dist Wt P b ≤ cfg.limit b) ∧
      lpRefine? (procs dist) cfg g ord (fun _ => false) sch part weights = some r ∧ cfg.limit 1 < (r 0).weights 1 := by
  have h : (lpRefine? 2 ⟨2, fun _ => 2, .locally, 1, 1, 0, true⟩ (imported [0, 1, 3] star2) order2 (fun _ => false) (fun _ c => plainPhase order2 c)
      (knownPart (imported [0, 1, 3] star2) leaves) fun _ => blockWeight [0, 1, 3] (fun _ => 1) leaves).map (fun r => (r 0).weights 1) = some 3 := by
    decide +kernel
  obtain ⟨r, h1, h2⟩ := Option.map_eq_some_iff.1 h
  exact ⟨[0, 1, 3], star2, imported [0, 1, 3] star2, fun _ => 1, order2, ⟨2, fun _ => 2, .locally, 1, 1, 0, true⟩, fun _ c => plainPhase order2 c,
    leaves, _, _, r, star2_input, order2_ok, ⟨by decide, fun _ => ⟨rfl, by decide⟩⟩, rfl, fun _ c => plainPhase_ok order2 c, known_agree _ _ _,
    by decide, by decide +kernel, h1, by rw [h2]; decide⟩

/-- **C77**, with two rounds of local moves the changes of the block weights are added twice: a block has a negative weight in the end. -/
theorem C77_local_rounds_wrong_weights : ∃ (dist : List Nat) (inp : Nat → Input) (g : Nat → DGraph) (Wt : Nat → Int) (ord : ColorOrder)
    (cfg : LPConfig) (sch : Nat → Nat → PhaseSchedule) (P : Nat → Nat) (part : Nat → Nat → Nat) (weights : Nat → Nat → Int)
    (r : Nat → LPLocal), LPInput dist inp g Wt ∧ ord.Ok dist inp ∧ cfg.strategy = .locally ∧ cfg.track = true ∧ cfg.rounds = 2 ∧
      (∀ t c, (sch t c).Ok dist ord c) ∧ Agree dist g Wt cfg.k part weights P ∧ (∀ a, a < globalN dist → P a < cfg.k) ∧
      lpRefine? (procs dist) cfg g ord (fun _ => false) sch part weights = some r ∧ (r 0).weights 0 < 0 := by
  have h : (lpRefine? 2 ⟨2, fun _ => 9, .locally, 1, 2, 0, true⟩ (imported [0, 1, 3] star2) order2 (fun _ => false) (fun _ c => plainPhase order2 c)
      (knownPart (imported [0, 1, 3] star2) leaves) fun _ => blockWeight [0, 1, 3] (fun _ => 1) leaves).map (fun r => (r 0).weights 0) = some (-4) := by
    decide +kernel
  obtain ⟨r, h1, h2⟩ := Option.map_eq_some_iff.1 h
  exact ⟨[0, 1, 3], star2, imported [0, 1, 3] star2, fun _ => 1, order2, ⟨2, fun _ => 9, .locally, 1, 2, 0, true⟩, fun _ c => plainPhase order2 c,
    leaves, _, _, r, star2_input, order2_ok, rfl, rfl, rfl, fun _ c => plainPhase_ok order2 c, known_agree _ _ _, by decide, h1,
    by rw [h2]; decide⟩

/-- The graph of the example of C64 has a process without nodes. -/
example : ∃ g, World dist3 inp3 g ∧ 1 < procs dist3 ∧ localN dist3 1 = 0 := by
  obtain ⟨g, W⟩ := world3
  exact ⟨g, W, by decide, by decide⟩

end Verif.Dist
