import Verif.ClusterBalancer.Rounds
import Verif.NodeBalancer.Rounds

/-!
# C90: rounds of the cluster balancer

All processes agree on the partition and on the block weights after each round, clusters are moved as a whole, and no block leaves its limit.
-/

namespace Verif.ClusterBalancer
open Verif List
open Verif.NodeBalancer

section

variable {C : CSys} {P : Nat → Nat}

/-! ## What is expected -/

/-- Every process that has a node as a ghost node owns one of its neighbours. -/
def CSys.Ghosts (C : CSys) : Prop := ∀ r u, C.sys.known r u = true → C.sys.owner u ≠ r → ∃ v ∈ C.adj u, C.sys.owner v = r

/-- The clusters of a process have no common nodes. -/
def CSys.Disjoint (C : CSys) : Prop := ∀ r i j u, u ∈ C.nodes r i → u ∈ C.nodes r j → i = j

/-- A cluster of process `r` with its block, its weight and a block as the target. -/
structure ClusterMove (C : CSys) (P : Nat → Nat) (r : Nat) (c : Cand) : Prop where
  target : c.to < C.sys.k
  weight : c.weight = ((C.nodes r c.id).map C.sys.wt).sum
  once : (C.nodes r c.id).Nodup
  node : ∀ u ∈ C.nodes r c.id, u < C.sys.n ∧ C.sys.owner u = r ∧ P u = c.from

/-- Different clusters of each process. -/
structure ClusterMoves (C : CSys) (P : Nat → Nat) (picks : Nat → List Cand) : Prop where
  move : ∀ r, r < C.sys.N → ∀ c ∈ picks r, ClusterMove C P r c
  distinct : ∀ r, r < C.sys.N → ((picks r).map Cand.id).Nodup

/-! ## Clusters as lists of nodes -/

/-- The moves of the nodes of a cluster. -/
def expand (C : CSys) (r : Nat) (c : Cand) : List Cand := (C.nodes r c.id).map fun u => ⟨u, c.from, c.to, C.sys.wt u, c.gain⟩

/-- The moves of the nodes of all clusters. -/
def allMoves (C : CSys) (acc : Nat → List Cand) : List Cand := (List.range C.sys.N).flatMap fun r => (acc r).flatMap (expand C r)

theorem mem_expand {r : Nat} {c d : Cand} (h : d ∈ expand C r c) : d.id ∈ C.nodes r c.id ∧ d.from = c.from ∧ d.to = c.to ∧ d.weight = C.sys.wt d.id := by
  obtain ⟨u, hu, rfl⟩ := List.mem_map.1 h
  exact ⟨hu, rfl, rfl, rfl⟩

theorem netW_const (wt : Nat → Int) (f t : Nat) (g : Int) (b : Nat) : ∀ l : List Nat, netW (l.map fun u => (⟨u, f, t, wt u, g⟩ : Cand)) b =
    (if t = b then (l.map wt).sum else 0) - if f = b then (l.map wt).sum else 0
  | [] => by simp [netW]
  | u :: l => by
    have ih := netW_const wt f t g b l
    unfold netW at *
    rw [List.map_cons, List.map_cons, List.sum_cons, ih, List.map_cons, List.sum_cons]
    dsimp only
    split_ifs <;> omega

theorem netW_expand {r : Nat} (b : Nat) : ∀ l : List Cand, (∀ c ∈ l, ClusterMove C P r c) → netW (l.flatMap (expand C r)) b = netW l b
  | [], _ => rfl
  | c :: l, h => by
    rw [List.flatMap_cons, netW_append, netW_expand b l fun d hd => h d (List.mem_cons_of_mem _ hd)]
    have e := netW_const C.sys.wt c.from c.to c.gain b (C.nodes r c.id)
    rw [← (h c List.mem_cons_self).weight] at e
    unfold expand
    rw [e]
    simp [netW]

theorem expand_nodup {r : Nat} (D : C.Disjoint) {l : List Cand} (h : ∀ c ∈ l, ClusterMove C P r c) (hn : (l.map Cand.id).Nodup) :
    ((l.flatMap (expand C r)).map Cand.id).Nodup := by
  rw [List.map_flatMap, List.nodup_flatMap]
  refine ⟨fun c hc => ?_, ?_⟩
  · unfold expand
    rw [List.map_map]
    exact (h c hc).once.map (fun _ _ h => h)
  · rw [List.Nodup, List.pairwise_map] at hn
    refine hn.imp fun {a b} hab u hua hub => ?_
    obtain ⟨x, hx, rfl⟩ := List.mem_map.1 hua
    obtain ⟨y, hy, e⟩ := List.mem_map.1 hub
    exact hab (D r _ _ _ (mem_expand hx).1 (e ▸ (mem_expand hy).1))

theorem mem_allMoves {acc : Nat → List Cand} {d : Cand} (h : d ∈ allMoves C acc) : ∃ r, r < C.sys.N ∧ ∃ c ∈ acc r, d ∈ expand C r c := by
  obtain ⟨r, hr, h⟩ := List.mem_flatMap.1 h
  obtain ⟨c, hc, h⟩ := List.mem_flatMap.1 h
  exact ⟨r, List.mem_range.1 hr, c, hc, h⟩

theorem allMoves_move {acc : Nat → List Cand} (M : ClusterMoves C P acc) : ∀ d ∈ allMoves C acc, Move C.sys P d := by
  intro d hd
  obtain ⟨r, hr, c, hc, h⟩ := mem_allMoves hd
  obtain ⟨h1, h2, h3, h4⟩ := mem_expand h
  have m := M.move r hr c hc
  exact ⟨(m.node _ h1).1, by rw [h2, (m.node _ h1).2.2], h4, by rw [h3]; exact m.target⟩

theorem allMoves_nodup (D : C.Disjoint) {acc : Nat → List Cand} (M : ClusterMoves C P acc) : ((allMoves C acc).map Cand.id).Nodup := by
  refine nodup_all (owner := C.sys.owner) (fun r hr d hd => ?_) (fun r hr => expand_nodup D (M.move r hr) (M.distinct r hr))
  obtain ⟨c, hc, h⟩ := List.mem_flatMap.1 hd
  exact ((M.move r hr c hc).node _ (mem_expand h).1).2.1

theorem apply_const {Q : Nat → Nat} {u t : Nat} : ∀ {cs : List Cand}, (∃ c ∈ cs, c.id = u) → (∀ c ∈ cs, c.id = u → c.to = t) → apply Q cs u = t
  | [], h, _ => by obtain ⟨c, hc, _⟩ := h; simp at hc
  | c :: cs, h, hall => by
    rw [apply_cons]
    by_cases hx : ∃ d ∈ cs, d.id = u
    · exact apply_const hx fun d hd => hall d (List.mem_cons_of_mem _ hd)
    · rw [apply_other fun d hd he => hx ⟨d, hd, he⟩]
      obtain ⟨d, hd, he⟩ := h
      rcases List.mem_cons.1 hd with rfl | hd
      · rw [← he, upd_same]; exact hall d List.mem_cons_self he
      · exact absurd ⟨d, hd, he⟩ hx

/-! ## The messages -/

theorem receivers_mem {r pe u : Nat} (hne : pe ≠ r) : pe ∈ receivers C r u ↔ ∃ v ∈ C.adj u, C.sys.owner v = pe := by
  have key : ∀ (l : List Nat) (pes : List Nat), pe ∈ l.foldl (markStep C r) pes ↔ pe ∈ pes ∨ ∃ v ∈ l, C.sys.owner v = pe := by
    intro l
    induction l with
    | nil => intro pes; simp
    | cons v l ih =>
      intro pes
      rw [List.foldl_cons, ih]
      have hm : pe ∈ markStep C r pes v ↔ pe ∈ pes ∨ C.sys.owner v = pe := by
        unfold markStep
        by_cases h1 : C.sys.owner v ≠ r
        · rw [if_pos h1]
          by_cases h2 : C.sys.owner v ∈ pes
          · rw [if_pos h2]
            exact ⟨.inl, fun h => h.elim id fun e => e ▸ h2⟩
          · rw [if_neg h2, List.mem_append, List.mem_singleton]
            exact ⟨fun h => h.imp id Eq.symm, fun h => h.imp id Eq.symm⟩
        · rw [if_neg h1]
          exact ⟨.inl, fun h => h.elim id fun e => absurd (e ▸ not_not.1 h1) hne⟩
      rw [hm]
      simp only [List.mem_cons, exists_eq_or_imp]
      tauto
  unfold receivers
  rw [key]
  simp

/-- The moves that process `pe` learns from process `r`. -/
def told (C : CSys) (pe r : Nat) (cands : List Cand) : List Cand :=
  (cands.flatMap (expand C r)).filter fun d => decide (pe ∈ receivers C r d.id)

theorem messages_eq (r pe : Nat) (cands : List Cand) : messages C r pe cands = (told C pe r cands).map fun d => (d.id, d.to) := by
  unfold messages told
  induction cands with
  | nil => rfl
  | cons c l ih =>
    rw [List.flatMap_cons, ih, List.flatMap_cons, List.filter_append, List.map_append]
    congr 1
    unfold expand
    induction C.nodes r c.id with
    | nil => rfl
    | cons u us ihu =>
      rw [List.flatMap_cons, ihu, List.map_cons, List.filter_cons]
      by_cases h : pe ∈ receivers C r u
      · rw [if_pos h, if_pos (by simpa using h)]; rfl
      · rw [if_neg h, if_neg (by simpa using h)]; rfl

theorem moveOwn_eq (r : Nat) : ∀ (cands : List Cand) (part : Nat → Nat), moveOwn C r cands part = apply part (cands.flatMap (expand C r))
  | [], part => rfl
  | c :: l, part => by
    have := moveOwn_eq r l ((C.nodes r c.id).foldl (fun part u => upd part u c.to) part)
    rw [List.flatMap_cons, apply_append]
    have e : apply part (expand C r c) = (C.nodes r c.id).foldl (fun part u => upd part u c.to) part := by
      unfold apply expand
      rw [List.foldl_map]
    rw [e]
    exact this

theorem receive_eq (rank : Nat) (acc : Nat → List Cand) (part : Nat → Nat) :
    receive C rank acc part = apply part ((List.range C.sys.N).flatMap fun pe => told C rank pe (acc pe)) := by
  unfold receive
  have key : ∀ (l : List Nat) (part : Nat → Nat), l.foldl (fun part pe => (messages C pe rank (acc pe)).foldl (fun part m => upd part m.1 m.2) part) part =
      apply part (l.flatMap fun pe => told C rank pe (acc pe)) := by
    intro l
    induction l with
    | nil => intro part; rfl
    | cons pe l ih =>
      intro part
      rw [List.foldl_cons, ih, List.flatMap_cons, apply_append]
      congr 1
      rw [messages_eq, List.foldl_map]
      rfl
  exact key _ _

/-- After `perform_moves`, every process has the right blocks. -/
theorem movedPart_ok (hg : C.Ghosts) (D : C.Disjoint) {s : Nat → Rank} (hc : Consistent C.sys P s) {acc : Nat → List Cand} (M : ClusterMoves C P acc)
    {rank u : Nat} (hr : rank < C.sys.N) (hu : u < C.sys.n) (hk : C.sys.known rank u = true) :
    movedPart C acc s rank u = apply P (allMoves C acc) u := by
  unfold movedPart
  rw [receive_eq, moveOwn_eq, ← apply_append]
  have hall := allMoves_nodup D M
  have hsub : ∀ d ∈ ((acc rank).flatMap (expand C rank) ++ (List.range C.sys.N).flatMap fun pe => told C rank pe (acc pe)), d ∈ allMoves C acc := by
    intro d hd
    rcases List.mem_append.1 hd with h | h
    · exact List.mem_flatMap.2 ⟨rank, List.mem_range.2 hr, h⟩
    · obtain ⟨pe, hpe, h⟩ := List.mem_flatMap.1 h
      exact List.mem_flatMap.2 ⟨pe, hpe, (List.mem_filter.1 h).1⟩
  by_cases hx : ∃ d ∈ allMoves C acc, d.id = u
  · obtain ⟨d, hd, rfl⟩ := hx
    rw [apply_mem hall hd]
    refine apply_const ⟨d, ?_, rfl⟩ fun x hx he => ?_
    · obtain ⟨r, hr', c, hc', h⟩ := mem_allMoves hd
      by_cases e : r = rank
      · subst e
        exact List.mem_append_left _ (List.mem_flatMap.2 ⟨c, hc', h⟩)
      · refine List.mem_append_right _ (List.mem_flatMap.2 ⟨r, List.mem_range.2 hr', List.mem_filter.2 ⟨List.mem_flatMap.2 ⟨c, hc', h⟩, ?_⟩⟩)
        have ho := ((M.move r hr' c hc').node _ (mem_expand h).1).2.1
        obtain ⟨v, hv, hov⟩ := hg rank d.id hk (by rw [ho]; exact e)
        exact decide_eq_true ((receivers_mem (Ne.symm e)).2 ⟨v, hv, hov⟩)
    · rw [← apply_mem (P := P) hall (hsub x hx), ← apply_mem (P := P) hall hd, he]
  · rw [apply_other fun d hd he => hx ⟨d, hsub d hd, he⟩, apply_other fun d hd he => hx ⟨d, hd, he⟩]
    exact hc.part rank hr u hu hk

theorem allMoves_net {acc : Nat → List Cand} (D : C.Disjoint) (M : ClusterMoves C P acc) (b : Nat) :
    blockWeight C.sys (apply P (allMoves C acc)) b = blockWeight C.sys P b + ((List.range C.sys.N).map fun r => netW (acc r) b).sum := by
  rw [weight_apply b (allMoves_nodup D M) (allMoves_move M)]
  have e := netW_eq b (allMoves C acc)
  unfold allMoves at *
  rw [netW_flatMap] at e
  have e2 : ((List.range C.sys.N).map fun r => netW ((acc r).flatMap (expand C r)) b).sum = ((List.range C.sys.N).map fun r => netW (acc r) b).sum :=
    sum_congr_range fun r hr => netW_expand b _ (M.move r hr)
  omega

/-- The nodes of a moved cluster are in its target, and all other nodes are where they were. -/
theorem allMoves_at (D : C.Disjoint) {acc : Nat → List Cand} (M : ClusterMoves C P acc) :
    (∀ r, r < C.sys.N → ∀ c ∈ acc r, ∀ u ∈ C.nodes r c.id, apply P (allMoves C acc) u = c.to) ∧
    ∀ u, (∀ r, r < C.sys.N → ∀ c ∈ acc r, u ∉ C.nodes r c.id) → apply P (allMoves C acc) u = P u := by
  constructor
  · intro r hr c hc u hu
    exact apply_mem (c := ⟨u, c.from, c.to, C.sys.wt u, c.gain⟩) (allMoves_nodup D M)
      (List.mem_flatMap.2 ⟨r, List.mem_range.2 hr, List.mem_flatMap.2 ⟨c, hc, List.mem_map.2 ⟨u, hu, rfl⟩⟩⟩)
  · intro u h
    refine apply_other fun d hd he => ?_
    obtain ⟨r, hr, c, hc, hx⟩ := mem_allMoves hd
    exact h r hr c hc (he ▸ (mem_expand hx).1)

/-! ## The rounds -/

/-- **C90, parallel rounds.**  For every result of the dice there is no undefined behaviour, and there is a choice among the proposed clusters such
that exactly the nodes of the chosen clusters have moved, to the targets of their clusters; all processes agree on this partition and its block
weights.  If moves are only accepted when balanced, no block within its limit leaves it. -/
theorem C90_parallel (hN : 0 < C.sys.N) (hg : C.Ghosts) (D : C.Disjoint) {picks : Nat → List Cand} {s : Nat → Rank} (hc : Consistent C.sys P s)
    (M : ClusterMoves C P picks) (tries : Nat) (accept : Bool) (rnd : Nat → Nat → Nat → Bool) :
    ∃ (s' : Nat → Rank) (P' : Nat → Nat) (chosen : Nat → List Cand), parallelRound? C tries accept rnd picks s = some s' ∧ Consistent C.sys P' s' ∧
      (∀ r, r < C.sys.N → ∀ c ∈ chosen r, c ∈ picks r) ∧
      (∀ r, r < C.sys.N → ∀ c ∈ chosen r, ∀ u ∈ C.nodes r c.id, P' u = c.to) ∧
      (∀ u, (∀ r, r < C.sys.N → ∀ c ∈ chosen r, u ∉ C.nodes r c.id) → P' u = P u) ∧
      (accept = false → ∀ b, b < C.sys.k → blockWeight C.sys P b ≤ C.sys.maxw b → blockWeight C.sys P' b ≤ C.sys.maxw b) := by
  obtain ⟨d, bal, h1, h2, h3⟩ := attempts_spec (S := C.sys) (bw := (s 0).bw) (rnd := rnd) (picks := picks) (n := max 1 tries)
    (d := fun r => ⟨picks r, 0, fun _ => 0⟩) (b := false) (fun r _ => List.Perm.refl _) (fun h => by
      rcases h with h | h
      · omega
      · cases h)
  unfold parallelRound?
  rw [h1]
  simp only [Option.bind_eq_bind, Option.bind_some]
  by_cases hacc : (bal || accept) = true
  · rw [if_pos hacc]
    let acc : Nat → List Cand := fun rank => (d rank).cands.take ((d rank).cands.length - (d rank).rejected)
    have hsub : ∀ r, r < C.sys.N → acc r <+~ picks r := fun r hr => ((List.take_sublist _ _).subperm).trans (h2 r hr).perm.subperm
    have hmem : ∀ r, r < C.sys.N → ∀ c ∈ acc r, c ∈ picks r := fun r hr c hc' => (hsub r hr).subset hc'
    have M' : ClusterMoves C P acc := ⟨fun r hr c hc' => M.move r hr c (hmem r hr c hc'), fun r hr => nodup_sub (hsub r hr) (M.distinct r hr)⟩
    have hW : ∀ b, blockWeight C.sys (apply P (allMoves C acc)) b = blockWeight C.sys P b + sumRanks C.sys.N fun r => (d r).deltas b := by
      intro b
      rw [allMoves_net D M']
      congr 1
      unfold sumRanks
      exact sum_congr_range fun r hr => ((h2 r hr).deltas b).symm
    refine ⟨_, apply P (allMoves C acc), acc, rfl, ⟨fun r hr u hu hk => movedPart_ok hg D hc M' hr hu hk, fun r hr b hb => ?_, fun u hu => ?_⟩, hmem,
      (allMoves_at D M').1, (allMoves_at D M').2, fun ha b hb hle => ?_⟩
    · show (s r).bw b + _ = _
      rw [hW, hc.weights r hr b hb]
    · exact apply_lt (fun c hc' => (allMoves_move M' c hc').target) (allMoves_nodup D M') (hc.block u hu)
    · have hbal : bal = true := by simpa [ha] using hacc
      have := h3 hbal
      unfold balanced at this
      have := List.all_eq_true.1 this b (List.mem_range.2 hb)
      rw [hW]
      have e0 := hc.weights 0 hN b hb
      simp only [overload, underload, e0, Bool.not_eq_true', Bool.and_eq_false_iff, beq_eq_false_iff_ne, decide_eq_false_iff_not] at this
      rcases this with h | h
      · omega
      · omega
  · rw [if_neg hacc]
    exact ⟨s, P, fun _ => [], rfl, hc, fun r _ c h => by simp at h, fun r _ c h => by simp at h, fun _ _ => rfl, fun _ b _ h => h⟩

theorem weightSteps : ∀ (l : List Cand) (bw : Nat → Int) (b : Nat), l.foldl weightStep bw b = bw b + netW l b
  | [], bw, b => by simp [netW]
  | c :: l, bw, b => by
    rw [List.foldl_cons, weightSteps l]
    have e : netW (c :: l) b = ((if c.to = b then c.weight else 0) - if c.from = b then c.weight else 0) + netW l b := by simp [netW]
    have h : weightStep bw c b = bw b + ((if c.to = b then c.weight else 0) - if c.from = b then c.weight else 0) := by
      unfold weightStep
      by_cases h1 : b = c.to
      · subst h1
        rw [upd_same, if_pos rfl]
        by_cases h2 : c.to = c.from
        · rw [h2, upd_same, if_pos rfl]; omega
        · rw [upd_ne _ _ h2, if_neg (Ne.symm h2)]; omega
      · rw [upd_ne _ _ h1, if_neg (Ne.symm h1)]
        by_cases h2 : b = c.from
        · subst h2; rw [upd_same, if_pos rfl]; omega
        · rw [upd_ne _ _ h2, if_neg (Ne.symm h2)]; omega
    rw [h, e]
    omega

theorem netW_split (N : Nat) (b : Nat) : ∀ l : List (Nat × Cand), (∀ w ∈ l, w.1 < N) →
    ((List.range N).map fun r => netW ((l.filter fun w => decide (w.1 = r)).map Prod.snd) b).sum = netW (l.map Prod.snd) b
  | [], _ => by
    have : ∀ n, ((List.range n).map fun _ => (0 : Int)).sum = 0 := fun n => by
      induction n with
      | zero => rfl
      | succ n ih => rw [List.range_succ, List.map_append, List.sum_append, ih]; simp
    simpa [netW] using this N
  | w :: l, h => by
    have ih := netW_split N b l fun x hx => h x (List.mem_cons_of_mem _ hx)
    have hw := h w List.mem_cons_self
    have e : netW ((w :: l).map Prod.snd) b = netW [w.2] b + netW (l.map Prod.snd) b := by
      rw [List.map_cons, ← List.singleton_append, netW_append]
    have h0 : netW ((((w :: l).filter fun x => decide (x.1 = w.1)).map Prod.snd)) b =
        netW [w.2] b + netW ((l.filter fun x => decide (x.1 = w.1)).map Prod.snd) b := by
      rw [List.filter_cons, if_pos (by simp), List.map_cons, ← List.singleton_append, netW_append]
    have := sum_range_change (f := fun r => netW (((w :: l).filter fun x => decide (x.1 = r)).map Prod.snd) b)
      (g := fun r => netW ((l.filter fun x => decide (x.1 = r)).map Prod.snd) b) (u := w.1) hw (fun v _ hv => by
        rw [List.filter_cons, if_neg (by simpa using Ne.symm hv)])
    rw [this, ih, e, h0]
    omega

/-- **C90, the moves of sequential rounds.**  If the winners that all processes get are different clusters with their owners, then exactly their
nodes have moved, to the targets of the clusters, and all processes agree on this partition and its block weights. -/
theorem C90_sequential_moves (hg : C.Ghosts) (D : C.Disjoint) {winners : List (Nat × Cand)} {s : Nat → Rank} (hc : Consistent C.sys P s)
    (hw : ∀ w ∈ winners, w.1 < C.sys.N ∧ ClusterMove C P w.1 w.2) (hd : (winners.map fun w => (w.1, w.2.id)).Nodup) :
    ∃ P', Consistent C.sys P' (sequentialMoves C winners s) ∧ (∀ w ∈ winners, ∀ u ∈ C.nodes w.1 w.2.id, P' u = w.2.to) ∧
      ∀ u, (∀ w ∈ winners, u ∉ C.nodes w.1 w.2.id) → P' u = P u := by
  let acc : Nat → List Cand := fun r => (winners.filter fun w => decide (w.1 = r)).map Prod.snd
  have hin : ∀ r c, c ∈ acc r ↔ (r, c) ∈ winners := by
    intro r c
    constructor
    · intro h
      obtain ⟨w, h1, rfl⟩ := List.mem_map.1 h
      obtain ⟨h2, h3⟩ := List.mem_filter.1 h1
      rw [← of_decide_eq_true h3]; exact h2
    · intro h
      exact List.mem_map.2 ⟨(r, c), List.mem_filter.2 ⟨h, by simp⟩, rfl⟩
  have M : ClusterMoves C P acc := by
    refine ⟨fun r _ c hc' => (hw _ ((hin r c).1 hc')).2, fun r _ => ?_⟩
    show (((winners.filter fun w => decide (w.1 = r)).map Prod.snd).map Cand.id).Nodup
    rw [List.map_map]
    have hd' : ((winners.filter fun w => decide (w.1 = r)).map fun w => (w.1, w.2.id)).Nodup := hd.sublist (List.filter_sublist.map _)
    refine List.Nodup.of_map (fun i => (r, i)) ?_
    rw [List.map_map]
    refine (List.map_congr_left fun w hw' => ?_) ▸ hd'
    have := of_decide_eq_true (List.mem_filter.1 hw').2
    show (w.1, w.2.id) = (r, w.2.id)
    rw [this]
  refine ⟨apply P (allMoves C acc), ⟨fun r hr u hu hk => movedPart_ok hg D hc M hr hu hk, fun r hr b hb => ?_, fun u hu => ?_⟩, fun w hw' u hu => ?_,
    fun u hu => ?_⟩
  · show (winners.map Prod.snd).foldl weightStep (s r).bw b = _
    rw [weightSteps, allMoves_net D M, hc.weights r hr b hb]
    congr 1
    exact (netW_split C.sys.N b winners fun w hw' => (hw w hw').1).symm
  · exact apply_lt (fun c hc' => (allMoves_move M c hc').target) (allMoves_nodup D M) (hc.block u hu)
  · exact (allMoves_at D M).1 w.1 (hw w hw').1 w.2 ((hin _ _).2 hw') u hu
  · exact (allMoves_at D M).2 u fun r _ c hc' => hu (r, c) ((hin r c).1 hc')

end

/-! ## A concrete case -/

namespace RoundExample

/-- A path 0 - 1 - 2 - 3 - 4 - 5; process 0 owns 0, 1 and 2, process 1 the others.  Cluster 0 of process 0 is {1, 2}, cluster 0 of process 1 is {3}. -/
def C : CSys := ⟨⟨2, 6, 2, fun _ => 4, fun _ => 1, fun u => u / 3, fun r u => u / 3 == r || (r == 0 && u == 3) || (r == 1 && u == 2)⟩,
  fun u => if u = 0 then [1] else [u - 1, u + 1], fun r i => if i = 0 then if r = 0 then [1, 2] else if r = 1 then [3] else [] else []⟩

/-- Nodes 0 to 4 are in block 0. -/
def P : Nat → Nat := fun u => if u < 5 then 0 else 1

def s : Nat → Rank := fun _ => ⟨P, fun b => if b = 0 then 5 else 1⟩

def picks : Nat → List Cand := fun r => if r = 0 then [⟨0, 0, 1, 2, 0⟩] else [⟨0, 0, 1, 1, 0⟩]

example : Consistent C.sys P s := ⟨fun _ _ _ _ _ => rfl, by decide, by decide⟩

example : C.Ghosts := by
  intro r u hk ho
  have h1 : (u / 3 == r || (r == 0 && u == 3) || (r == 1 && u == 2)) = true := hk
  have h2 : u / 3 ≠ r := ho
  have h3 : (r = 0 ∧ u = 3) ∨ (r = 1 ∧ u = 2) := by simpa [h2] using h1
  rcases h3 with ⟨rfl, rfl⟩ | ⟨rfl, rfl⟩
  · exact ⟨2, by decide, by decide⟩
  · exact ⟨3, by decide, by decide⟩

theorem disjoint : C.Disjoint := by
  intro r i j u hi hj
  have h : ∀ i, u ∈ C.nodes r i → i = 0 := fun i hi => by
    by_contra hne
    have e : C.nodes r i = [] := if_neg hne
    rw [e] at hi
    simp at hi
  rw [h i hi, h j hj]

theorem move (r : Nat) (hr : r < 2) : ∀ c ∈ picks r, ClusterMove C P r c := by
  rcases (by omega : r = 0 ∨ r = 1) with rfl | rfl
  · intro c hc
    rw [show picks 0 = [⟨0, 0, 1, 2, 0⟩] from rfl, List.mem_singleton] at hc
    subst hc
    exact ⟨by decide, by decide, by decide, by decide⟩
  · intro c hc
    rw [show picks 1 = [⟨0, 0, 1, 1, 0⟩] from rfl, List.mem_singleton] at hc
    subst hc
    exact ⟨by decide, by decide, by decide, by decide⟩

example : ClusterMoves C P picks := ⟨move, fun r _ => by unfold picks; split <;> simp⟩

/-- Both clusters are accepted: each process learns about the ghost node that has moved, and block 1 is at its limit. -/
example : (parallelRound? C 1 false (fun _ _ _ => true) picks s).map
    (fun s' => ((List.range 4).map (s' 0).part, [2, 3, 4, 5].map (s' 1).part, (s' 0).bw 0, (s' 1).bw 1)) =
    some ([0, 1, 1, 1], [1, 1, 0, 1], 2, 4) := by decide +kernel

end RoundExample

end Verif.ClusterBalancer
