import Verif.FM.Batch
import Verif.FM.Terminate

/-!
# C36, C37: the local searches of the FM refiner
-/

namespace Verif.FM
open Finset Verif.DynMaps Verif.Maps Verif.Delta Verif.Gains

/-! ## C36: one worker -/

/-- **C36**, the refiner with one thread.  For every symmetric graph without self loops and with non-negative node
weights, every partition into `k` blocks with correct block weights, every old content of the shared data
structures, every order in which nodes are visited and shuffled, every rule for choosing the next node and for
stopping, every number of iterations: the refiner returns (no search in a hash map runs forever, no node is pushed
twice, no key of a missing node is changed), the total gain it computes is non-negative and equals the amount by
which it reduced the cut, no block is heavier than its limit or its former weight, the blocks are valid and the
stored block weights are those of the new partition. -/
theorem C36_refine (c : Cfg) (hwf : c.g.WF) (hsym : c.g.Symm) (hloop : ∀ u, u < c.g.n → c.g.wt u u = 0)
    (hnn : ∀ u, u < c.g.n → 0 ≤ c.g.w u) (hseeds : 0 < c.numSeeds)
    (sh : Shared) (hpart : ∀ u, u < c.g.n → sh.part u < c.k)
    (hbw : ∀ b, b < c.k → sh.bw b = weight c.g.n c.g.w sh.part b)
    (old : Dense) (owner : Nat → Int) (target : Nat → Nat) (order : List Nat) (ho : order.Perm (List.range c.g.n))
    (steps : Nat) (its : List Iteration) (hits : ∀ it ∈ its, it.ok c.g.n)
    (hroom : 1 + its.length * (c.g.n * (steps + 1)) < 2 ^ 64) :
    ∃ sh' gain, refine? c steps its old owner target order sh = some (sh', gain) ∧
      0 ≤ gain ∧ c.g.cut sh'.part = c.g.cut sh.part - gain ∧
      (∀ b, b < c.k → weight c.g.n c.g.w sh'.part b ≤ max (weight c.g.n c.g.w sh.part b) (c.maxW b)) ∧
      (∀ u, u < c.g.n → sh'.part u < c.k) ∧
      (∀ b, b < c.k → sh'.bw b = weight c.g.n c.g.w sh'.part b) := by
  have hc : Ok c := ⟨hwf, hsym, hloop, hnn⟩
  cases its with
  | nil => exact ⟨sh, 0, rfl, Int.le_refl _, (Int.sub_zero _).symm, fun b _ => Int.le_max_left _ _, hpart, hbw⟩
  | cons it its =>
    -- the first iteration resets the tracker, so its old content does not matter
    have hreset : iterations? c steps (it :: its)
        { sh, cache := Dense.init c.g sh.part c.k old order, owner, target } (Worker.new 1) 0 =
        iterations? c steps (it :: its)
        { sh, cache := Dense.init c.g sh.part c.k old order, owner := fun u => if u < c.g.n then 0 else owner u, target } (Worker.new 1) 0 := by
      have hit := hits it List.mem_cons_self
      have : initBorder { sh, cache := Dense.init c.g sh.part c.k old order, owner, target } it.order =
          initBorder { sh, cache := Dense.init c.g sh.part c.k old order, owner := fun u => if u < c.g.n then 0 else owner u, target } it.order := by
        unfold initBorder
        simp only [Prod.mk.injEq, State.mk.injEq, true_and, and_true]
        funext u
        by_cases hu : u < c.g.n
        · have hm : u ∈ it.order := by rw [hit.1.mem_iff]; exact List.mem_range.2 hu
          rw [owner_reset _ _ _ (Or.inl hm), owner_reset _ _ _ (Or.inl hm)]
        · have hm : u ∉ it.order := by rw [hit.1.mem_iff]; exact fun h => hu (List.mem_range.1 h)
          have key : ∀ (l : List Nat) (o : Nat → Int), u ∉ l → l.foldl (fun o u => upd o u unlocked) o u = o u := by
            intro l
            induction l with
            | nil => intro o _; rfl
            | cons x l ih =>
              intro o h
              rw [List.mem_cons, not_or] at h
              rw [List.foldl_cons, ih _ h.2, upd_ne _ _ h.1]
          rw [key _ _ hm, key _ _ hm, if_neg hu]
      unfold iterations? iteration?
      simp only [this]
    have hid : Idle c { sh, cache := Dense.init c.g sh.part c.k old order, owner := fun u => if u < c.g.n then 0 else owner u, target }
        (Worker.new 1) := by
      refine ⟨⟨hpart, hbw, init_exact hwf hpart old ho⟩, ⟨_, Delta.Inv.new c.g.n c.g.w sh.part⟩, ⟨_, LInv.new c.g c.k sh.part⟩,
        (Core.new (by omega)).2, fun _ _ => rfl, rfl, Int.le_refl _, ?_⟩
      intro u hu
      show (if u < c.g.n then (0 : Int) else owner u) ≠ 1
      rw [if_pos hu]; decide
    obtain ⟨s', w', gain, h1, h2, h3⟩ := iterations_ok hc hseeds steps (it :: its) _ (Worker.new 1) 0 hits hid
      ⟨hroom, hroom⟩
    refine ⟨s'.sh, gain, ?_, h3.nonneg, h3.cut, h3.bal, h2.sinv.lt, h2.sinv.bw⟩
    unfold refine?
    simp only [hreset, h1, Option.bind_eq_bind, Option.bind_some, Int.zero_add]

/-- **C36**, one batch (`run_batch`) of a worker that is between two batches (`Idle`: its queues and its delta
partition are empty and it owns no node; a new worker is, and this theorem shows that it is so after every batch).
The returned gain is non-negative and is the amount by which the cut was reduced; no block is heavier than its limit
or its former weight; only nodes that nobody owned were moved, and they are marked as moved; what was only moved
tentatively is forgotten (the delta partition reports the shared partition), and every other node is as free as
before. -/
theorem C36_batch (c : Cfg) (hwf : c.g.WF) (hsym : c.g.Symm) (hloop : ∀ u, u < c.g.n → c.g.wt u u = 0)
    (hnn : ∀ u, u < c.g.n → 0 ≤ c.g.w u) (strat : Strategy) (steps : Nat) (border : List Nat)
    (hborder : ∀ u ∈ border, u < c.g.n) (next : Nat) (s : State) (w : Worker) (h : Idle c s w)
    (hr : Room w (steps + 1)) :
    ∃ next' s' w' gain, runBatch? c strat steps border next s w = some (next', s', w', gain) ∧ Idle c s' w' ∧
      0 ≤ gain ∧ c.g.cut s'.sh.part = c.g.cut s.sh.part - gain ∧
      (∀ b, b < c.k → weight c.g.n c.g.w s'.sh.part b ≤ max (weight c.g.n c.g.w s.sh.part b) (c.maxW b)) ∧
      (∀ b, b < c.k → s'.sh.bw b = weight c.g.n c.g.w s'.sh.part b) ∧
      (∀ u, s'.sh.part u ≠ s.sh.part u → s.owner u = unlocked ∧ s'.owner u = movedGlobally) ∧
      (∀ u, s'.owner u = s.owner u ∨ (s.owner u = unlocked ∧ s'.owner u = movedGlobally)) ∧
      (∀ u, w'.loc.delta.block? s'.sh.part u = some (s'.sh.part u)) ∧
      (∀ u b, u < c.g.n → b < c.k → s'.cache.conn u b = c.g.conn u fun v => s'.sh.part v = b) := by
  obtain ⟨n', s', w', gain, h1, h2, _⟩ := batch_ok ⟨hwf, hsym, hloop, hnn⟩ strat steps hborder (next := next) h (m := 0) hr
  obtain ⟨used, hd⟩ := h2.idle.d
  exact ⟨n', s', w', gain, h1, h2.idle, h2.nonneg, h2.cut, h2.bal, h2.idle.sinv.bw, h2.moved, h2.owner, fun u => hd.block u,
    fun u b hu hb => exact_conn h2.idle.sinv.cache hu hb⟩

/-- **C36**, termination: whatever rule picks the next node, and if nothing else stops it, the search of a batch
ends after fewer than `(n + 1)²` iterations: allowing more does not change the result. -/
theorem C36_ends (c : Cfg) (hwf : c.g.WF) (hsym : c.g.Symm) (hloop : ∀ u, u < c.g.n → c.g.wt u u = 0)
    (hnn : ∀ u, u < c.g.n → 0 ≤ c.g.w u) (strat : Strategy) (border : List Nat)
    (hborder : ∀ u ∈ border, u < c.g.n) (next : Nat) (s : State) (w : Worker) (h : Idle c s w)
    (hr : Room w ((c.g.n + 1) * (c.g.n + 1))) (more : Nat) :
    runBatch? c strat ((c.g.n + 1) * (c.g.n + 1) + more) border next s w =
      runBatch? c strat ((c.g.n + 1) * (c.g.n + 1)) border next s w := by
  have ht0 : Targets c s { w with seeds := [], cur := 0, best := 0 } := by
    intro b u key hk
    have hk : w.pq b u = some key := hk
    rw [h.pq] at hk; cases hk
  obtain ⟨next', s1, w1, h1, h2, h3, h4, h5, h6, h7, h8, h9⟩ := poll_ok hborder (border.length + 1) next s _ 0 h.start ht0
    (by omega) (by omega)
  unfold runBatch?
  simp only [h1, Option.bind_eq_bind, Option.bind_some]
  rw [search_ends ⟨hwf, hsym, hloop, hnn⟩ strat _ _ s1 w1 more h2 h3 (by unfold Room at hr ⊢; rw [h5]; exact hr)
    (potential_lt c s1 w1)]

/-- If `num_seed_nodes` is 0, a batch takes no border node and the loop over the batches runs forever as soon as
there is a border node: no number of batches suffices. -/
theorem C36_refine_not_zero_seeds (c : Cfg) (hwf : c.g.WF) (hsym : c.g.Symm) (hloop : ∀ u, u < c.g.n → c.g.wt u u = 0)
    (hnn : ∀ u, u < c.g.n → 0 ≤ c.g.w u) (h0 : c.numSeeds = 0) (strat : Nat → Strategy) (steps : Nat) (border : List Nat)
    (hborder : ∀ u ∈ border, u < c.g.n) (next : Nat) (hn : next < border.length) :
    ∀ (fuel : Nat) (s : State) (w : Worker) (total : Int), Idle c s w → Room w (fuel * (steps + 1)) →
      batches? c strat steps border fuel next s w total = none
  | 0, s, w, total, _, _ => by unfold batches?; rw [if_pos hn]
  | fuel + 1, s, w, total, h, hr => by
    rw [Nat.add_mul, Nat.one_mul] at hr
    unfold batches?
    rw [if_pos hn]
    obtain ⟨n', s', w', gain, h1, h2, h3, _⟩ := batch_ok ⟨hwf, hsym, hloop, hnn⟩ (strat fuel) steps hborder (next := next) h
      (m := fuel * (steps + 1)) (by unfold Room at hr ⊢; omega)
    have hn' : n' = next := by
      have hp : ∀ st : State × Worker × Nat, poll? c border (border.length + 1) next st = some (next, st.1, st.2.1) := by
        intro st
        unfold poll?
        rw [h0, if_neg (by omega)]
      unfold runBatch? at h1
      rw [hp] at h1
      simp only [Option.bind_eq_bind, Option.bind_some] at h1
      cases hs : search? c (strat fuel) steps (s, { w with seeds := [], cur := 0, best := 0 }) with
      | none => rw [hs] at h1; cases h1
      | some r => rw [hs] at h1; cases h1; rfl
    simp only [h1, Option.bind_eq_bind, Option.bind_some, hn']
    exact C36_refine_not_zero_seeds c hwf hsym hloop hnn h0 strat steps border hborder next hn fuel s' w' _ h2.idle h3

/-- The rule of the code: a node with the largest key. -/
def greedy (n k : Nat) : Strategy := fun _ w =>
  ((List.range k).flatMap fun b => (List.range n).map fun u => (b, u)).foldl (fun best e =>
    match w.pq e.1 e.2, best with
    | none, best => best
    | some _, none => some e
    | some x, some f => match w.pq f.1 f.2 with
      | some y => if x > y then some e else some f
      | none => some e) none

/-- A path of four nodes (weights 2, 3, 4) cut at all three edges; blocks of at most three nodes. -/
def exC : Cfg :=
  { g := exG, k := 2, maxW := fun _ => 3, minGain := -100, exact := true, numSeeds := 2, unlockSeeds := true, unlockMoved := true }

def exSh : Shared := ⟨fun u => u % 2, fun b => if b < 2 then 2 else 0⟩

def exIt : Iteration := ⟨[2, 0, 3, 1], List.reverse, fun _ => greedy 4 2, false⟩

/-- Non-vacuity of C36: the hypotheses hold for this example, and the refiner reduces the cut from 9 to
2. -/
example : (∃ sh' gain, refine? exC 25 [exIt, exIt] ⟨0, 0, fun _ => 0, 0, fun _ => 0, 0⟩ (fun _ => 1) (fun _ => 9) [0, 1, 2, 3] exSh =
      some (sh', gain) ∧ exC.g.cut sh'.part = exC.g.cut exSh.part - gain) ∧
    ((refine? exC 25 [exIt, exIt] ⟨0, 0, fun _ => 0, 0, fun _ => 0, 0⟩ (fun _ => 1) (fun _ => 9) [0, 1, 2, 3] exSh).map fun r =>
      ((List.range 4).map r.1.part, r.1.bw 0, r.1.bw 1, r.2)) = some ([0, 1, 1, 1], 1, 3, 7) := by
  constructor
  · obtain ⟨sh', gain, h1, _, h2, _⟩ := C36_refine exC exG_wf exG_symm
      (by intro u hu; have : u = 0 ∨ u = 1 ∨ u = 2 ∨ u = 3 := (by simp only [exC, exG] at hu; omega); rcases this with rfl | rfl | rfl | rfl <;> decide)
      (fun _ _ => by show (0 : Int) ≤ 1; decide) (by decide) exSh
      (by intro u _; show u % 2 < 2; omega)
      (by intro b hb; have : b = 0 ∨ b = 1 := (by simp only [exC] at hb; omega); rcases this with rfl | rfl <;> decide)
      ⟨0, 0, fun _ => 0, 0, fun _ => 0, 0⟩ (fun _ => 1) (fun _ => 9) [0, 1, 2, 3] (by decide) 25 [exIt, exIt]
      (by
        intro it hit
        have : it = exIt := by simpa using hit
        rw [this]
        exact ⟨by decide, fun l => List.reverse_perm l⟩)
      (by decide)
    exact ⟨sh', gain, h1, h2⟩
  · decide +kernel

/-! ## C37: several workers -/

theorem Idle.other {c : Cfg} {s s' : State} {w : Worker} (h : Idle c s w) (hs : SInv c s')
    (ho : ∀ u, u < c.g.n → s'.owner u ≠ w.id) : Idle c s' w := by
  obtain ⟨u1, hd⟩ := h.d
  obtain ⟨u2, ht⟩ := h.t
  refine ⟨hs, ⟨u1, hd.good, hd.stamp, ?_, hd.nonneg, ?_⟩, ⟨u2, ht.good, ht.stamp, ?_⟩, h.empty, h.pq, h.touched, h.idpos, ho⟩
  · intro u; rw [h.empty]
  · intro b
    rw [hd.bw b]; omega
  · intro u b hu hb
    rw [ht.diff u b hu hb]; omega

theorem runSequence_ok {c : Cfg} (hc : Ok c) {border : List Nat} (hb : ∀ u ∈ border, u < c.g.n) :
    ∀ (l : List Task) (next : Nat) (s : State) (w : Nat → Worker), (∀ i, Idle c s (w i)) →
      (∀ i, Room (w i) ((l.map fun t => t.steps + 1).sum)) →
      ∃ next' s' w' gain, runSequence? c border l (next, s, w) 0 = some ((next', s', w'), gain) ∧
        RoundSpec c s.sh.part s'.sh.part gain ∧ SInv c s' ∧ ∀ total, runSequence? c border l (next, s, w) total = some ((next', s', w'), total + gain)
  | [], next, s, w, hi, _ => ⟨next, s, w, 0, rfl, RoundSpec.refl c _, (hi 0).sinv, fun t => by unfold runSequence?; rw [Int.add_zero]⟩
  | t :: l, next, s, w, hi, hr => by
    have hr' : ∀ i, Room (w i) (t.steps + ((l.map fun t => t.steps + 1).sum + 1)) := by
      intro i
      have := hr i
      rw [List.map_cons, List.sum_cons] at this
      unfold Room at this ⊢
      omega
    obtain ⟨n1, s1, w1, g1, h1, h2, h3, _⟩ := batch_ok hc t.strat t.steps hb (next := next) (hi t.worker) (hr' t.worker)
    have hidle : ∀ i, Idle c s1 (upd w t.worker w1 i) := by
      intro i
      by_cases hit : i = t.worker
      · rw [hit, upd_same]; exact h2.idle
      · rw [upd_ne _ _ hit]
        refine (hi i).other h2.idle.sinv ?_
        intro u hu
        rcases h2.owner u with h | ⟨_, h⟩
        · rw [h]; exact (hi i).id0 u hu
        · rw [h]
          have := (hi i).idpos
          unfold movedGlobally
          omega
    have hroom : ∀ i, Room (upd w t.worker w1 i) ((l.map fun t => t.steps + 1).sum) := by
      intro i
      by_cases hit : i = t.worker
      · rw [hit, upd_same]; exact h3
      · rw [upd_ne _ _ hit]
        have := hr' i
        unfold Room at this ⊢
        omega
    obtain ⟨n2, s2, w2, g2, k1, k2, k3, k4⟩ := runSequence_ok hc hb l n1 s1 (upd w t.worker w1) hidle hroom
    have hall : ∀ total, runSequence? c border (t :: l) (next, s, w) total = some ((n2, s2, w2), total + (g1 + g2)) := by
      intro total
      unfold runSequence?
      simp only [h1, Option.bind_eq_bind, Option.bind_some]
      rw [k4]
      congr 2; omega
    exact ⟨n2, s2, w2, g1 + g2, by rw [hall 0, Int.zero_add], RoundSpec.trans ⟨h2.nonneg, h2.cut, h2.bal⟩ k2, k3, hall⟩

/-- **C37**, for batches that do not overlap in time: any number of workers run any number of batches one after the
other; no block ends heavier than its limit or its former weight, and the cut is reduced by the sum of the returned
gains.  Missing: overlapping batches, for which the property is false (`C37_concurrent_not_balanced`). -/
theorem C37_sequential_partial (c : Cfg) (hwf : c.g.WF) (hsym : c.g.Symm) (hloop : ∀ u, u < c.g.n → c.g.wt u u = 0)
    (hnn : ∀ u, u < c.g.n → 0 ≤ c.g.w u) (border : List Nat) (hborder : ∀ u ∈ border, u < c.g.n)
    (tasks : List Task) (next : Nat) (s : State) (w : Nat → Worker) (hidle : ∀ i, Idle c s (w i))
    (hroom : ∀ i, Room (w i) ((tasks.map fun t => t.steps + 1).sum)) :
    ∃ next' s' w' gain, runSequence? c border tasks (next, s, w) 0 = some ((next', s', w'), gain) ∧
      0 ≤ gain ∧ c.g.cut s'.sh.part = c.g.cut s.sh.part - gain ∧
      (∀ b, b < c.k → weight c.g.n c.g.w s'.sh.part b ≤ max (weight c.g.n c.g.w s.sh.part b) (c.maxW b)) ∧
      (∀ b, b < c.k → s'.sh.bw b = weight c.g.n c.g.w s'.sh.part b) := by
  obtain ⟨n', s', w', gain, h1, h2, h3, _⟩ := runSequence_ok ⟨hwf, hsym, hloop, hnn⟩ hborder tasks next s w hidle hroom
  exact ⟨n', s', w', gain, h1, h2.nonneg, h2.cut, h2.bal, h3.bw⟩

/-- Five unit-weight nodes: 0 and 1 and 4 in block 0, 2 in block 1, 3 in block 2. -/
def exG5 : Graph :=
  { n := 5, w := fun _ => 1
    adj := fun u => if u = 0 then [(1, 1), (2, 1)] else if u = 1 then [(0, 1), (3, 2)]
      else if u = 2 then [(0, 1), (4, 1)] else if u = 3 then [(1, 2)] else if u = 4 then [(2, 1)] else [] }

/-- Block 1 may hold two nodes, the other blocks five. -/
def exC5 : Cfg :=
  { g := exG5, k := 3, maxW := fun b => if b = 1 then 2 else 5, minGain := -100, exact := true, numSeeds := 1
    unlockSeeds := true, unlockMoved := true }

def exPart5 : Nat → Nat := fun u => if u = 2 then 1 else if u = 3 then 2 else 0

def exS5 : State :=
  { sh := ⟨exPart5, fun b => if b = 0 then 3 else 1⟩
    cache := Dense.init exG5 exPart5 3 ⟨0, 0, fun _ => 0, 0, fun _ => 0, 0⟩ [0, 1, 2, 3, 4]
    owner := fun _ => 0, target := fun _ => 0 }

/-- Worker 0 takes seed node 0 and worker 1 takes seed node 4.  Worker 0 moves node 0 to block 1 in its delta
partition, worker 1 moves node 4 to block 1 in the shared partition, worker 0 finds an improvement by moving node 1 to
block 2 and applies both of its moves. -/
def exSchedule : List (Nat × Action) :=
  [(0, .poll), (1, .poll), (0, .step (greedy 5 3)), (1, .step (greedy 5 3)), (0, .step (greedy 5 3)), (0, .finish), (1, .finish)]

/-- **C37 is false for overlapping batches**: in this schedule every worker always takes a node with the largest key
and checks the weight of the target block before each move, all blocks respect their limits before, and block 1 is
overloaded afterwards. -/
theorem C37_concurrent_not_balanced :
    (∀ b, b < 3 → weight 5 exG5.w exPart5 b ≤ exC5.maxW b) ∧
    ∃ next s w, runSchedule? exC5 [0, 4] exSchedule (0, exS5, fun i => Worker.new (i + 1)) = some (next, s, w) ∧
      exC5.maxW 1 < weight 5 exG5.w s.sh.part 1 := by
  constructor
  · intro b hb
    have : b = 0 ∨ b = 1 ∨ b = 2 := by omega
    rcases this with rfl | rfl | rfl <;> decide
  · have key : ((runSchedule? exC5 [0, 4] exSchedule (0, exS5, fun i => Worker.new (i + 1))).map fun r =>
        decide (exC5.maxW 1 < weight 5 exG5.w r.2.1.sh.part 1)) = some true := by decide +kernel
    cases h : runSchedule? exC5 [0, 4] exSchedule (0, exS5, fun i => Worker.new (i + 1)) with
    | none => rw [h] at key; cases key
    | some r =>
      rw [h] at key
      exact ⟨r.1, r.2.1, r.2.2, rfl, of_decide_eq_true (Option.some.inj key)⟩

/-- Non-vacuity of the sequential theorem: the same two workers, one after the other. -/
example : ∃ next' s' w' gain, runSequence? exC5 [0, 4] [⟨0, greedy 5 3, 30⟩, ⟨1, greedy 5 3, 30⟩]
      (0, exS5, fun i => Worker.new (i + 1)) 0 = some ((next', s', w'), gain) ∧
    weight 5 exG5.w s'.sh.part 1 ≤ 2 := by
  have hwf : exG5.WF := by
    intro u hu
    have : u = 0 ∨ u = 1 ∨ u = 2 ∨ u = 3 ∨ u = 4 := by simp only [exG5] at hu; omega
    rcases this with rfl | rfl | rfl | rfl | rfl <;> decide
  have hsym : exG5.Symm := by
    intro u v x hu hv
    have h1 : u = 0 ∨ u = 1 ∨ u = 2 ∨ u = 3 ∨ u = 4 := by simp only [exG5] at hu; omega
    have h2 : v = 0 ∨ v = 1 ∨ v = 2 ∨ v = 3 ∨ v = 4 := by simp only [exG5] at hv; omega
    rcases h1 with rfl | rfl | rfl | rfl | rfl <;> rcases h2 with rfl | rfl | rfl | rfl | rfl <;>
      simp [exG5, List.count_cons, List.count_nil]
  have hpart : ∀ u, u < 5 → exPart5 u < 3 := by
    intro u _; unfold exPart5; split <;> (try split) <;> omega
  have hidle : ∀ i : Nat, Idle exC5 exS5 (Worker.new (i + 1)) := by
    intro i
    refine ⟨⟨hpart, ?_, init_exact hwf hpart _ (by decide)⟩, ⟨_, Delta.Inv.new 5 exG5.w exPart5⟩, ⟨_, LInv.new exG5 3 exPart5⟩,
      (Core.new (by omega)).2, fun _ _ => rfl, rfl, ?_, ?_⟩
    · intro b hb
      have : b = 0 ∨ b = 1 ∨ b = 2 := by simp only [exC5] at hb; omega
      rcases this with rfl | rfl | rfl <;> decide
    · show (1 : Int) ≤ i + 1; omega
    · intro u _
      show (0 : Int) ≠ i + 1; omega
  obtain ⟨n', s', w', gain, h1, _, _, h4, _⟩ := C37_sequential_partial exC5 hwf hsym
    (by intro u hu; have : u = 0 ∨ u = 1 ∨ u = 2 ∨ u = 3 ∨ u = 4 := (by simp only [exC5, exG5] at hu; omega)
        rcases this with rfl | rfl | rfl | rfl | rfl <;> decide)
    (fun _ _ => by show (0 : Int) ≤ 1; decide) [0, 4]
    (by intro u hu; simp at hu; rcases hu with rfl | rfl <;> decide)
    [⟨0, greedy 5 3, 30⟩, ⟨1, greedy 5 3, 30⟩] 0 exS5 (fun i => Worker.new (i + 1)) hidle
    (by intro i; exact ⟨(by show 1 + 62 < 2 ^ 64; decide), (by show 1 + 62 < 2 ^ 64; decide)⟩)
  refine ⟨n', s', w', gain, h1, ?_⟩
  have := h4 1 (by decide)
  have h5 : weight exC5.g.n exC5.g.w exS5.sh.part 1 = 1 := by decide
  rw [h5] at this
  exact this

end Verif.FM
