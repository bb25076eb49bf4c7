import Verif.Gains.Large
import Verif.Metrics.Props

/-!
# C32, C33, C34: gain caches
-/

namespace Verif.Gains
open Finset Verif.DynMaps Verif.Delta

/-! ## C32: the caches equal the true connectivity -/

/-- **C32**, dense cache.  Start from any old content, initialise for a partition (the parallel loop may run in
any order), then let any number of threads move nodes: `ms` lists the moves, such that each node leaves the block
it is in; `ops` are the atomic updates of all these moves in any interleaving.  Afterwards all connections, gains,
listed gains and border flags are those of the current partition, and no access left the arrays. -/
theorem C32_dense (g : Graph) (hg : g.WF) (hs : g.Symm) (hpos : ∀ u, u < g.n → ∀ e ∈ g.adj u, 0 < e.2)
    (k : Nat) (part : Nat → Nat) (hpart : ∀ u, u < g.n → part u < k)
    (old : Dense) (order : List Nat) (ho : order.Perm (List.range g.n))
    (ms : List Move) (hms : ValidMoves g.n k part ms)
    (ops : List (Nat × Int)) (hops : ops.Perm (ms.flatMap (moveOps g k))) :
    ∀ s p, s = ops.foldl Dense.add (Dense.init g part k old order) → p = applyMoves part ms →
    ∀ u, u < g.n →
      (∀ b, b < k → s.conn u b = g.conn u (fun v => p v = b)) ∧
      (∀ a b, a < k → b < k → s.gain u a b = g.conn u (fun v => p v = b) - g.conn u (fun v => p v = a)) ∧
      (∀ exact a, a < k → s.gains true exact u a = gainsSpec g p k exact u a ∧
        s.gains false exact u a = (gainsSpec g p k exact u a).filter fun e => g.conn u (fun v => p v = e.1) > 0) ∧
      (s.isBorder u (p u) = true ↔ ∃ e ∈ g.adj u, p e.1 ≠ p u) ∧
      (∀ b, b < k → index s.k u b < s.size) ∧ u < s.wsize := by
  intro s p hsd hp u hu
  have h : Exact g p k s := by
    rw [hsd, hp]
    exact move_exact hs hpart (init_exact hg hpart old ho) hms hops
  have hc : ∀ b, b < k → s.conn u b = g.conn u (fun v => p v = b) := by
    intro b hb
    unfold Dense.conn
    rw [h.kk]; exact h.conn u b hu hb
  refine ⟨hc, ?_, ?_, ?_, ?_, Nat.lt_of_lt_of_le hu h.wsize⟩
  · intro a b ha hb
    unfold Dense.gain
    rw [hc a ha, hc b hb]
  · intro exact a ha
    constructor
    · unfold Dense.gains gainsSpec
      rw [h.kk]
      apply List.filterMap_congr
      intro b hb
      have hb := List.mem_range.1 hb
      by_cases hab : a = b
      · rw [if_pos hab, if_pos hab.symm]
      · rw [if_neg hab, if_neg (Ne.symm hab), hc b hb, hc a ha]
        rfl
    · unfold Dense.gains gainsSpec
      rw [h.kk, List.filter_filterMap]
      apply List.filterMap_congr
      intro b hb
      have hb := List.mem_range.1 hb
      by_cases hab : a = b
      · rw [if_pos hab, if_pos hab.symm]; rfl
      · rw [if_neg hab, if_neg (Ne.symm hab), hc b hb, hc a ha]
        simp [Option.filter]
  · rw [← border_iff g p u (p u) (hpos u hu)]
    unfold Dense.isBorder
    rw [h.wdeg u hu, hc (p u) (by rw [hp]; exact applyMoves_lt hms hpart u hu)]
    simp
  · intro b hb
    rw [h.kk]
    exact Nat.lt_of_lt_of_le (index_lt hu hb) h.size

/-- A path 0-1-2-3 with weights 2, 3, 4. -/
def exG : Graph :=
  { n := 4, w := fun _ => 1
    adj := fun u => if u = 0 then [(1, 2)] else if u = 1 then [(0, 2), (2, 3)]
      else if u = 2 then [(1, 3), (3, 4)] else if u = 3 then [(2, 4)] else [] }

theorem exG_wf : exG.WF := by intro u hu; have : u = 0 ∨ u = 1 ∨ u = 2 ∨ u = 3 := (by simp only [exG] at hu; omega); rcases this with rfl | rfl | rfl | rfl <;> decide

theorem exG_pos : ∀ u, u < exG.n → ∀ e ∈ exG.adj u, 0 < e.2 := by
  intro u hu; have : u = 0 ∨ u = 1 ∨ u = 2 ∨ u = 3 := (by simp only [exG] at hu; omega); rcases this with rfl | rfl | rfl | rfl <;> decide

theorem exG_symm : exG.Symm := by
  intro u v c hu hv
  have h1 : u = 0 ∨ u = 1 ∨ u = 2 ∨ u = 3 := (by simp only [exG] at hu; omega)
  have h2 : v = 0 ∨ v = 1 ∨ v = 2 ∨ v = 3 := (by simp only [exG] at hv; omega)
  rcases h1 with rfl | rfl | rfl | rfl <;> rcases h2 with rfl | rfl | rfl | rfl <;>
    simp [exG, List.count_cons, List.count_nil]

/-- Nodes 1 and 2 move at the same time; the updates of the two threads are interleaved. -/
example : ∃ s, s = List.foldl Dense.add (Dense.init exG (fun u => u / 2) 3 ⟨0, 0, fun _ => 7, 5, fun _ => 9, 1⟩ [2, 0, 3, 1])
      [(index 3 1 1, -3), (index 3 0 0, -2), (index 3 1 2, 3), (index 3 0 2, 2), (index 3 2 0, -3), (index 3 3 1, -4),
       (index 3 2 2, 3), (index 3 3 2, 4)] ∧
    s.conn 1 2 = 3 ∧ s.gain 2 2 1 = 1 ∧ s.isBorder 0 0 = true := by
  have := C32_dense exG exG_wf exG_symm exG_pos 3 (fun u => u / 2) (by intro u hu; simp only [exG] at hu; show u / 2 < 3; omega)
    ⟨0, 0, fun _ => 7, 5, fun _ => 9, 1⟩ [2, 0, 3, 1] (by decide) [⟨1, 0, 2⟩, ⟨2, 1, 2⟩] (by decide)
    [(index 3 1 1, -3), (index 3 0 0, -2), (index 3 1 2, 3), (index 3 0 2, 2), (index 3 2 0, -3), (index 3 3 1, -4),
       (index 3 2 2, 3), (index 3 3 2, 4)] (by decide) _ _ rfl rfl
  refine ⟨_, rfl, ?_, ?_, ?_⟩
  · rw [(this 1 (by decide)).1 2 (by decide)]; decide
  · rw [(this 2 (by decide)).2.1 2 1 (by decide) (by decide)]; decide
  · have h := (this 0 (by decide)).2.2.2.1
    have h2 : applyMoves (fun u => u / 2) [⟨1, 0, 2⟩, ⟨2, 1, 2⟩] 0 = 0 := by decide
    rw [h2] at h
    exact h.2 (by decide)

/-- Without positive weights the border flag can be wrong: an edge of weight 0 leaves the block. -/
theorem C32_border_not_zero_weight :
    let g : Graph := { n := 2, w := fun _ => 1, adj := fun u => if u = 0 then [(1, 0)] else [(0, 0)] }
    (Dense.init g id 2 ⟨0, 0, fun _ => 0, 0, fun _ => 0, 0⟩ [0, 1]).isBorder 0 0 = false ∧
      ∃ e ∈ g.adj 0, id e.1 ≠ 0 := by
  decide

/-- **C32**, gains computed on the fly: they read the current partition and agree with the specification if the
blocks passed are different. -/
theorem C32_on_the_fly (g : Graph) (p : Nat → Nat) (k u : Nat) :
    (∀ b, OnTheFly.conn g p u b = g.conn u (fun v => p v = b)) ∧
    (∀ a b, a ≠ b → OnTheFly.gain g p u a b = g.conn u (fun v => p v = b) - g.conn u (fun v => p v = a)) ∧
    (∀ a b c, a ≠ b → a ≠ c → b ≠ c → OnTheFly.gain2 g p u a (b, c) =
      (g.conn u (fun v => p v = b) - g.conn u (fun v => p v = a), g.conn u (fun v => p v = c) - g.conn u (fun v => p v = a))) ∧
    (∀ exact a, OnTheFly.gains exact g p k u a = gainsSpec g p k exact u a) ∧
    (OnTheFly.isBorder g p u (p u) = true ↔ ∃ e ∈ g.adj u, p e.1 ≠ p u) := by
  refine ⟨otf_conn g p u, otf_gain g p u, fun a b c h1 h2 h3 => otf_gain2 g p u a (b, c) h1 h2 h3, ?_, ?_⟩
  · intro exact a
    unfold OnTheFly.gains gainsSpec
    apply List.filterMap_congr
    intro b _
    by_cases h : b = a
    · rw [if_pos h, if_pos h]
    · rw [if_neg h, if_neg h, otf_map, conn_block, otf_map, conn_block]
      simp
  · unfold OnTheFly.isBorder
    simp

example : OnTheFly.gain exG (fun u => u / 2) 1 0 1 = 1 := by decide

/-- With equal blocks the gain computed on the fly is not the difference of the connections (the difference is 0). -/
theorem C32_on_the_fly_not_same_block : ∃ (g : Graph) (p : Nat → Nat), OnTheFly.gain g p 0 0 0 ≠ 0 :=
  ⟨exG, fun _ => 0, by decide⟩

/-- Asked for the gains of two equal targets, the second one is wrong. -/
theorem C32_on_the_fly_not_same_targets : ∃ (g : Graph) (p : Nat → Nat),
    (OnTheFly.gain2 g p 0 0 (1, 1)).2 ≠ g.conn 0 (fun v => p v = 1) - g.conn 0 (fun v => p v = 0) :=
  ⟨exG, fun u => u, by decide⟩

/-! ## C33: gain and cut -/

/-- **C33**, one move: in a symmetric graph without self-loops, the edge cut computed after moving `u` to `c` is the
edge cut before minus the gain. -/
theorem C33_one_move (g : Graph) (hg : g.WF) (hs : g.Symm) (hl : ∀ u, u < g.n → ∀ e ∈ g.adj u, e.1 ≠ u)
    (p : Nat → Nat) (u c : Nat) (hu : u < g.n) :
    ∃ x y, Metrics.edgeCutSeq g p = some x ∧ Metrics.edgeCutSeq g (upd p u c) = some y ∧
      y = x - (g.conn u (fun v => p v = c) - g.conn u (fun v => p v = p u)) := by
  refine ⟨_, _, Metrics.C19_edge_cut_sequential g hg hs p, Metrics.C19_edge_cut_sequential g hg hs _, ?_⟩
  refine cut_upd g hg hs p hu ?_ c
  rcases Decidable.em (g.wt u u = 0) with h | h
  · exact h
  · obtain ⟨e, he, h2⟩ := wt_ne_zero h
    exact absurd h2 (hl u hu e he)

/-- Move the nodes one after the other; before each move ask the cache for its gain. -/
def runMoves (g : Graph) : Dense → List Move → Int × Dense
  | s, [] => (0, s)
  | s, m :: ms => let r := runMoves g (s.move g m) ms; (s.gain m.node m.from m.to + r.1, r.2)

theorem runMoves_cut (g : Graph) (hg : g.WF) (hs : g.Symm) (hl : ∀ u, u < g.n → ∀ e ∈ g.adj u, e.1 ≠ u) (k : Nat) :
    ∀ (ms : List Move) (p : Nat → Nat) (s : Dense), Exact g p k s → (∀ u, u < g.n → p u < k) → ValidMoves g.n k p ms →
    g.cut (applyMoves p ms) = g.cut p - (runMoves g s ms).1
  | [], p, s, _, _, _ => by simp [applyMoves, runMoves]
  | m :: ms, p, s, h, hp, ⟨h1, h2, h3, h4⟩ => by
    have he := move_exact hs hp h (ms := [m]) ⟨h1, h2, h3, trivial⟩ (ops := moveOps g k m) (by simp)
    have hm : s.move g m = (moveOps g k m).foldl Dense.add s := by unfold Dense.move; rw [h.kk]
    rw [← hm] at he
    have ih := runMoves_cut g hg hs hl k ms (upd p m.node m.to) (s.move g m) he (upd_lt hp h3) h4
    have h0 : g.wt m.node m.node = 0 := by
      rcases Decidable.em (g.wt m.node m.node = 0) with h | h
      · exact h
      · obtain ⟨e, he, h2⟩ := wt_ne_zero h
        exact absurd h2 (hl _ h1 e he)
    have hc := cut_upd g hg hs p h1 h0 m.to
    have hgain : s.gain m.node m.from m.to = g.conn m.node (fun v => p v = m.to) - g.conn m.node (fun v => p v = p m.node) := by
      unfold Dense.gain Dense.conn
      rw [h.kk, h.conn _ _ h1 h3, h.conn _ _ h1 (by rw [h2]; exact hp _ h1), h2]
    show g.cut (applyMoves (upd p m.node m.to) ms) = g.cut p - (s.gain m.node m.from m.to + _)
    rw [ih, hc, hgain]
    omega

/-- **C33**, any sequence of moves: the cut decreases by the sum of the gains the cache reports just before each
move. -/
theorem C33_sequence (g : Graph) (hg : g.WF) (hs : g.Symm) (hl : ∀ u, u < g.n → ∀ e ∈ g.adj u, e.1 ≠ u)
    (k : Nat) (part : Nat → Nat) (hpart : ∀ u, u < g.n → part u < k)
    (old : Dense) (order : List Nat) (ho : order.Perm (List.range g.n))
    (ms : List Move) (hms : ValidMoves g.n k part ms) :
    ∃ x y, Metrics.edgeCutSeq g part = some x ∧ Metrics.edgeCutSeq g (applyMoves part ms) = some y ∧
      y = x - (runMoves g (Dense.init g part k old order) ms).1 :=
  ⟨_, _, Metrics.C19_edge_cut_sequential g hg hs part, Metrics.C19_edge_cut_sequential g hg hs _,
    runMoves_cut g hg hs hl k ms part _ (init_exact hg hpart old ho) hpart hms⟩

example : Metrics.edgeCutSeq exG (fun u => u / 2) = some 3 ∧
    Metrics.edgeCutSeq exG (applyMoves (fun u => u / 2) [⟨1, 0, 1⟩, ⟨3, 1, 0⟩]) = some 6 ∧
    (runMoves exG (Dense.init exG (fun u => u / 2) 2 ⟨0, 0, fun _ => 7, 5, fun _ => 9, 1⟩ [2, 0, 3, 1])
      [⟨1, 0, 1⟩, ⟨3, 1, 0⟩]).1 = -3 := by
  refine ⟨by decide, by decide, ?_⟩
  have h := runMoves_cut exG exG_wf exG_symm
    (by intro u hu; have : u = 0 ∨ u = 1 ∨ u = 2 ∨ u = 3 := (by simp only [exG] at hu; omega); rcases this with rfl | rfl | rfl | rfl <;> decide)
    2 [⟨1, 0, 1⟩, ⟨3, 1, 0⟩] (fun u => u / 2) _
    (init_exact exG_wf (by intro u hu; simp only [exG] at hu; show u / 2 < 2; omega) ⟨0, 0, fun _ => 7, 5, fun _ => 9, 1⟩ (order := [2, 0, 3, 1]) (by decide))
    (by intro u hu; simp only [exG] at hu; show u / 2 < 2; omega) (by decide)
  have h1 : exG.cut (fun u => u / 2) = 3 := by decide
  have h2 : exG.cut (applyMoves (fun u => u / 2) [⟨1, 0, 1⟩, ⟨3, 1, 0⟩]) = 6 := by decide
  rw [h1, h2] at h
  omega

/-! ## C34: delta gain caches -/

theorem view_lt {n k : Nat} {part : Nat → Nat} (hp : ∀ u, u < n → part u < k) : ∀ (ops : List Op) (v : Nat → Nat),
    (∀ op ∈ ops, op.ok n k) → (∀ u, u < n → v u < k) → ∀ u, u < n → ops.foldl (fun v op => match op with
      | .setBlock u b => upd v u b
      | .clear => part) v u < k
  | [], _, _, hv => hv
  | .setBlock u b :: ops, v, hok, hv => view_lt hp ops _ (fun op h => hok op (List.mem_cons_of_mem _ h))
      (upd_lt hv (hok _ List.mem_cons_self).2)
  | .clear :: ops, v, hok, hv => view_lt hp ops _ (fun op h => hok op (List.mem_cons_of_mem _ h)) hp

/-- **C34**, generic delta cache over an exact shared cache `c` of the shared partition `part`: after any sequence
of local moves and clears it reports the connections, gains and gain lists of the partition the thread sees
(`view part ops`, which is `part` again after a clear).  The shared cache is a parameter that no operation
changes. -/
theorem C34_generic (g : Graph) (hs : g.Symm) (k : Nat) (part : Nat → Nat) (hpart : ∀ u, u < g.n → part u < k)
    (c : Dense) (hck : c.k = k) (hc : ∀ u b, u < g.n → b < k → c.conn u b = g.conn u fun v => part v = b)
    (ops : List Op) (hok : ∀ op ∈ ops, op.ok g.n k) (hclr : numClears ops + 1 < 2 ^ 64) :
    ∃ s, ops.foldlM (Local.op? g k part) Local.new = some s ∧
      ∀ p, p = view part ops → ∀ u, u < g.n →
        s.delta.block? part u = some (p u) ∧
        (∀ b, b < k → deltaConn? c s.tab u b = some (g.conn u fun v => p v = b)) ∧
        (∀ a b, a < k → b < k →
          deltaGain? c s.tab u a b = some (g.conn u (fun v => p v = b) - g.conn u (fun v => p v = a))) ∧
        (∀ exact a, a < k → deltaGains? exact c s.tab u a = some (gainsSpec g p k exact u a)) := by
  obtain ⟨s, used, used', h1, h2, h3⟩ := local_run hs hpart ops Local.new part [] []
    (Delta.Inv.new g.n g.w part) (LInv.new g k part) hpart (by show 1 + _ < _; omega) (by show 1 + _ < _; omega) hok
  refine ⟨s, h1, ?_⟩
  intro p hp u hu
  have h2 : Delta.Inv g.n g.w part p s.delta used := hp ▸ h2
  have h3 : LInv g k part p s.tab used' := hp ▸ h3
  have hd : ∀ b, b < k → connDelta? c.k s.tab u b = some (g.conn u (fun x => p x = b) - g.conn u (fun x => part x = b)) := by
    intro b hb
    rw [connDelta_ok h3.good, hck, h3.diff u b hu hb]
  refine ⟨h2.block u, ?_, ?_, ?_⟩
  · intro b hb
    unfold deltaConn?
    rw [hd b hb]
    simp only [Option.bind_eq_bind, Option.bind_some, hc u b hu hb]
    congr 1; omega
  · intro a b ha hb
    unfold deltaGain? Dense.gain
    rw [hd a ha, hd b hb]
    simp only [Option.bind_eq_bind, Option.bind_some, hc u b hu hb, hc u a hu ha]
    congr 1; omega
  · intro exact a ha
    have hcf : deltaFrom? exact c.k s.tab u a =
        some (if exact then g.conn u (fun x => p x = a) - g.conn u (fun x => part x = a) else 0) := by
      cases exact
      · rfl
      · exact hd a ha
    unfold deltaGains?
    rw [hcf]
    simp only [Option.bind_eq_bind, Option.bind_some]
    rw [mapM_some _ (fun q => (q.1, q.2 + (g.conn u (fun x => p x = q.1) - g.conn u (fun x => part x = q.1)) -
      (if exact then g.conn u (fun x => p x = a) - g.conn u (fun x => part x = a) else 0)))]
    · unfold Dense.gains gainsSpec
      rw [hck, List.map_filterMap]
      congr 1
      apply List.filterMap_congr
      intro b hb
      have hb := List.mem_range.1 hb
      by_cases hab : a = b
      · rw [if_pos hab, if_pos hab.symm]; rfl
      · rw [if_neg hab, if_neg (Ne.symm hab), hc u b hu hb, hc u a hu ha]
        simp only [if_true, Option.map_some]
        cases exact
        · simp only [Bool.false_eq_true, if_false]; congr 2; omega
        · simp only [if_true]; congr 2; omega
    · intro q hq
      unfold Dense.gains at hq
      rw [List.mem_filterMap] at hq
      obtain ⟨b, hb, hq⟩ := hq
      rw [List.mem_range, hck] at hb
      by_cases hab : a = b
      · rw [if_pos hab] at hq; cases hq
      · rw [if_neg hab, if_pos rfl] at hq
        cases hq
        rw [hd b hb]; rfl

example : ∃ s, [Op.setBlock 1 1, .clear, .setBlock 2 0, .setBlock 0 1, .setBlock 2 1].foldlM
      (Local.op? exG 2 fun u => u / 2) Local.new = some s ∧
    deltaConn? (Dense.init exG (fun u => u / 2) 2 ⟨0, 0, fun _ => 7, 5, fun _ => 9, 1⟩ [2, 0, 3, 1]) s.tab 1 1 = some 5 := by
  have hp : ∀ u, u < exG.n → u / 2 < 2 := by intro u hu; simp only [exG] at hu; omega
  have he := init_exact exG_wf hp ⟨0, 0, fun _ => 7, 5, fun _ => 9, 1⟩ (order := [2, 0, 3, 1]) (by decide)
  obtain ⟨s, h1, h2⟩ := C34_generic exG exG_symm 2 (fun u => u / 2) hp _ he.kk
    (fun u b hu hb => by unfold Dense.conn; rw [he.kk]; exact he.conn u b hu hb)
    [.setBlock 1 1, .clear, .setBlock 2 0, .setBlock 0 1, .setBlock 2 1]
    (by intro op h; simp at h; rcases h with rfl | rfl | rfl | rfl | rfl <;> simp [Op.ok, exG]) (by decide)
  refine ⟨s, h1, ?_⟩
  rw [(h2 _ rfl 1 (by decide)).2.1 1 (by decide)]
  decide

/-- **C34**, delta cache for large `k`.  Connections are exact.  Its list of gains names no block twice, names
every block the node is connected to in the partition the thread sees, and gives the right gain for every named
block if it reports gains.  If it is asked for connections (`exact = false`) the value is right for the blocks
the node was connected to in the shared partition; for the others see `C34_large_not_connection`. -/
theorem C34_large_partial (g : Graph) (hg : g.WF) (hs : g.Symm) (hpos : ∀ u, u < g.n → ∀ e ∈ g.adj u, 0 < e.2)
    (k : Nat) (part : Nat → Nat) (hpart : ∀ u, u < g.n → part u < k)
    (c : Dense) (hck : c.k = k) (hc : ∀ u b, u < g.n → b < k → c.conn u b = g.conn u fun v => part v = b)
    (ops : List Op) (hok : ∀ op ∈ ops, op.ok g.n k) (hclr : numClears ops + 1 < 2 ^ 64) :
    ∃ s, ops.foldlM (LocalLarge.op? g c part) LocalLarge.new = some s ∧
      ∀ p, p = view part ops → ∀ u, u < g.n →
        (∀ b, b < k → deltaConn? c s.tab u b = some (g.conn u fun v => p v = b)) ∧
        (∀ a b, a < k → b < k →
          deltaGain? c s.tab u a b = some (g.conn u (fun v => p v = b) - g.conn u (fun v => p v = a))) ∧
        (∀ exact a, a < k → ∃ l, largeGains? exact c (s.tab, s.adj) u a = some l ∧ (l.map Prod.fst).Nodup ∧
          (∀ b, b < k → b ≠ a → g.conn u (fun v => p v = b) ≠ 0 → b ∈ l.map Prod.fst) ∧
          (∀ e ∈ l, e.1 < k ∧ e.1 ≠ a ∧
            (exact = true → e.2 = g.conn u (fun v => p v = e.1) - g.conn u (fun v => p v = a)) ∧
            (exact = false → g.conn u (fun v => part v = e.1) ≠ 0 → e.2 = g.conn u (fun v => p v = e.1)))) := by
  obtain ⟨s, used', h1, h3, h4⟩ := large_run hs hg hpos ⟨hck, hc⟩ hpart ops LocalLarge.new part [] []
    (Delta.Inv.new g.n g.w part) (LInv.new g k part) (AInv.nil g k part) hpart
    (by show 1 + _ < _; omega) (by show 1 + _ < _; omega) hok
  refine ⟨s, h1, ?_⟩
  intro p hp u hu
  have h3 : LInv g k part p s.tab used' := hp ▸ h3
  have h4 : AInv g k part p s.adj := hp ▸ h4
  have hd : ∀ b, b < k → connDelta? c.k s.tab u b = some (g.conn u (fun x => p x = b) - g.conn u (fun x => part x = b)) := by
    intro b hb
    rw [connDelta_ok h3.good, hck, h3.diff u b hu hb]
  refine ⟨?_, ?_, ?_⟩
  · intro b hb
    unfold deltaConn?
    rw [hd b hb]
    simp only [Option.bind_eq_bind, Option.bind_some, hc u b hu hb]
    congr 1; omega
  · intro a b ha hb
    unfold deltaGain? Dense.gain
    rw [hd a ha, hd b hb]
    simp only [Option.bind_eq_bind, Option.bind_some, hc u b hu hb, hc u a hu ha]
    congr 1; omega
  · intro exact a ha
    have hcf : deltaFrom? exact c.k s.tab u a =
        some (if exact then g.conn u (fun x => p x = a) - g.conn u (fun x => part x = a) else 0) := by
      cases exact
      · rfl
      · exact hd a ha
    have hL1 : ∀ q ∈ c.gains false exact u a, q.1 < k ∧ q.1 ≠ a ∧ g.conn u (fun x => part x = q.1) ≠ 0 ∧
        q.2 = g.conn u (fun x => part x = q.1) - if exact then g.conn u (fun x => part x = a) else 0 := by
      intro q hq
      unfold Dense.gains at hq
      rw [List.mem_filterMap] at hq
      obtain ⟨b, hb, hq⟩ := hq
      rw [List.mem_range, hck] at hb
      by_cases hab : a = b
      · rw [if_pos hab] at hq; cases hq
      · rw [if_neg hab, if_neg (by decide), hc u b hu hb, hc u a hu ha] at hq
        split at hq
        · rename_i hpos'
          cases hq
          exact ⟨hb, Ne.symm hab, by show g.conn u (fun x => part x = b) ≠ 0; omega, rfl⟩
        · cases hq
    have hL2 : ∀ b ∈ (s.adj u).filter (· ≠ a), b < k ∧ b ≠ a ∧ g.conn u (fun x => part x = b) = 0 := by
      intro b hb
      rw [List.mem_filter] at hb
      have := h4.new u b hu hb.1
      exact ⟨this.1, by simpa using hb.2, this.2⟩
    have hl : largeGains? exact c (s.tab, s.adj) u a = some (
        ((c.gains false exact u a).map fun q => (q.1, q.2 + (g.conn u (fun x => p x = q.1) - g.conn u (fun x => part x = q.1)) -
          (if exact then g.conn u (fun x => p x = a) - g.conn u (fun x => part x = a) else 0))) ++
        (((s.adj u).filter (· ≠ a)).map fun b => (b, c.gain u a b + (g.conn u (fun x => p x = b) - g.conn u (fun x => part x = b)) -
          (if exact then g.conn u (fun x => p x = a) - g.conn u (fun x => part x = a) else 0)))) := by
      unfold largeGains?
      simp only
      rw [hcf]
      simp only [Option.bind_eq_bind, Option.bind_some]
      rw [mapM_some _ (fun q => (q.1, q.2 + (g.conn u (fun x => p x = q.1) - g.conn u (fun x => part x = q.1)) -
        (if exact then g.conn u (fun x => p x = a) - g.conn u (fun x => part x = a) else 0)))]
      · rw [mapM_some _ (fun b => (b, c.gain u a b + (g.conn u (fun x => p x = b) - g.conn u (fun x => part x = b)) -
          (if exact then g.conn u (fun x => p x = a) - g.conn u (fun x => part x = a) else 0)))]
        · rfl
        · intro b hb
          rw [hd b (hL2 b hb).1]; rfl
      · intro q hq
        rw [hd q.1 (hL1 q hq).1]; rfl
    refine ⟨_, hl, ?_, ?_, ?_⟩
    · rw [List.map_append, List.map_map, List.map_map]
      rw [List.nodup_append]
      refine ⟨?_, ?_, ?_⟩
      · show ((c.gains false exact u a).map fun q => q.1).Nodup
        unfold Dense.gains
        rw [List.map_filterMap]
        refine List.Nodup.filterMap ?_ List.nodup_range
        intro x y z hx hy
        by_cases h1 : a = x
        · simp [h1] at hx
        · by_cases h2 : a = y
          · simp [h2] at hy
          · simp only [h1, h2, if_false, Bool.false_eq_true] at hx hy
            split at hx
            · split at hy
              · simp at hx hy; omega
              · simp at hy
            · simp at hx
      · show (((s.adj u).filter (· ≠ a)).map fun b => b).Nodup
        rw [List.map_id']
        exact (h4.nodup u hu).filter _
      · intro x hx y hy hxy
        rw [List.mem_map] at hx hy
        obtain ⟨q, hq, rfl⟩ := hx
        obtain ⟨b, hb, rfl⟩ := hy
        have hxy : q.1 = b := hxy
        exact (hL1 q hq).2.2.1 (hxy ▸ (hL2 b hb).2.2)
    · intro b hb hba hne
      rw [List.map_append, List.mem_append, List.map_map, List.map_map]
      by_cases h0 : g.conn u (fun x => part x = b) = 0
      · right
        refine List.mem_map.2 ⟨b, ?_, rfl⟩
        rw [List.mem_filter]
        exact ⟨h4.all u b hu hb h0 hne, by simpa using hba⟩
      · left
        refine List.mem_map.2 ⟨(b, c.conn u b - if exact then c.conn u a else 0), ?_, rfl⟩
        unfold Dense.gains
        rw [List.mem_filterMap]
        refine ⟨b, List.mem_range.2 (by rw [hck]; exact hb), ?_⟩
        have hn := conn_nonneg g part u b (hpos u hu)
        rw [if_neg (Ne.symm hba), if_neg (by decide), if_pos (by rw [hc u b hu hb]; omega)]
    · intro e he
      rw [List.mem_append, List.mem_map, List.mem_map] at he
      rcases he with ⟨q, hq, rfl⟩ | ⟨b, hb, rfl⟩
      · obtain ⟨i1, i2, i3, i4⟩ := hL1 q hq
        refine ⟨i1, i2, ?_, ?_⟩
        · intro hex; subst hex
          simp only [if_true] at i4 ⊢
          omega
        · intro hex _; subst hex
          simp only [Bool.false_eq_true, if_false] at i4 ⊢
          omega
      · obtain ⟨i1, i2, i3⟩ := hL2 b hb
        refine ⟨i1, i2, ?_, ?_⟩
        · intro hex; subst hex
          simp only [if_true]
          unfold Dense.gain
          rw [hc u b hu i1, hc u a hu ha]
          omega
        · intro _ h; exact absurd i3 h

/-- Asked for connections, the cache for large `k` reports the gain instead for a block that became adjacent
by a local move: node 1 of the path has connection 3 to block 2 after node 2 moved there, but `3 - 2` is
reported. -/
theorem C34_large_not_connection : ∃ c : Dense, c.k = 3 ∧
    (∀ u b, u < exG.n → b < 3 → c.conn u b = exG.conn u fun v => v / 2 = b) ∧
    ([Op.setBlock 2 2].foldlM (LocalLarge.op? exG c fun u => u / 2) LocalLarge.new >>=
      fun s => largeGains? false c (s.tab, s.adj) 1 0) = some [(1, 0), (2, 1)] ∧
    exG.conn 1 (fun v => view (fun u => u / 2) [Op.setBlock 2 2] v = 2) = 3 := by
  have he := init_exact exG_wf (k := 3) (part := fun u => u / 2) (by intro u hu; simp only [exG] at hu; show u / 2 < 3; omega)
    ⟨0, 0, fun _ => 0, 0, fun _ => 0, 0⟩ (order := [0, 1, 2, 3]) (by decide)
  refine ⟨_, he.kk, ?_, ?_, by decide⟩
  · intro u b hu hb
    unfold Dense.conn
    rw [he.kk]; exact he.conn u b hu hb
  · decide +kernel

end Verif.Gains
