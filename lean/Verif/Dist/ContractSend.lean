import Verif.Dist.ContractEdges

/-!
# What the processes know about the edges of the coarse graph, for the proof of C73
-/

namespace Verif.Dist
open Verif.Math

variable {C : Nat → Nat} {dist : List Nat} {inp : Nat → Input} {g : Nat → DGraph} {lab : Nat → List Nat} {S : Nat → Orders}

/-- The edges of the nodes of process `p`. -/
def fineOf (dist : List Nat) (inp : Nat → Input) (p u : Nat) : List GEdge := ((inp p).neighbours u).map fun y => (first dist p + u, y.1, y.2)

theorem edges_fine : edges dist inp = (List.range (procs dist)).flatMap fun p => (List.range (localN dist p)).flatMap (fineOf dist inp p) := rfl

/-- The edges of the nodes in clusters of other processes, as edges between clusters. -/
def rawOf (dist : List Nat) (inp : Nat → Input) (C : Nat → Nat) (p u : Nat) : List GEdge :=
  if first dist p ≤ C (first dist p + u) ∧ C (first dist p + u) < first dist (p + 1) then []
  else (((inp p).neighbours u).map fun y => (C (first dist p + u), C y.1, y.2)).filter fun e => decide (C (first dist p + u) ≠ e.2.1)

def raw (dist : List Nat) (inp : Nat → Input) (C : Nat → Nat) (p : Nat) : List GEdge := (List.range (localN dist p)).flatMap (rawOf dist inp C p)

/-- The edges that process `p` sends. -/
def outE (S : Nat → Orders) (dist : List Nat) (inp : Nat → Input) (C : Nat → Nat) (p : Nat) : List GEdge :=
  (mergeRuns ((S p).sortPairs (raw dist inp C p))).map fun e => (cnode dist C e.1, cnode dist C e.2.1, e.2.2)

theorem wsum_map_eq {α : Type} {φ ψ : Nat → Nat → Bool} {F G : α → GEdge} : ∀ {l : List α}, (∀ a, a ∈ l → φ (F a).1 (F a).2.1 = ψ (G a).1 (G a).2.1) →
    (∀ a, a ∈ l → (F a).2.2 = (G a).2.2) → wsum φ (l.map F) = wsum ψ (l.map G)
  | [], _, _ => rfl
  | a :: l, h1, h2 => by
    rw [List.map_cons, List.map_cons, wsum_cons, wsum_cons, wsum_map_eq (fun a h => h1 a (List.mem_cons_of_mem _ h))
      (fun a h => h2 a (List.mem_cons_of_mem _ h)), h1 a List.mem_cons_self, h2 a List.mem_cons_self]

theorem wsum_filter {φ : Nat → Nat → Bool} {c : GEdge → Bool} : ∀ {l : List GEdge}, (∀ e, e ∈ l → φ e.1 e.2.1 = true → c e = true) →
    wsum φ (l.filter c) = wsum φ l
  | [], _ => rfl
  | e :: l, h => by
    have ih := wsum_filter (l := l) fun e he => h e (List.mem_cons_of_mem _ he)
    by_cases hc : c e = true
    · rw [List.filter_cons_of_pos hc, wsum_cons, wsum_cons, ih]
    · rw [List.filter_cons_of_neg hc, wsum_cons, if_neg fun hf => hc (h e List.mem_cons_self hf), Int.zero_add, ih]

theorem wsum_zero {φ : Nat → Nat → Bool} {l : List GEdge} (h : ∀ e, e ∈ l → φ e.1 e.2.1 = false) : wsum φ l = 0 := by
  unfold wsum
  rw [List.filter_eq_nil_iff.2 fun e he => by rw [h e he]; exact Bool.false_ne_true]
  rfl

theorem World.neighbour_local (W : World dist inp g) {p u : Nat} (hp : p < procs dist) (hu : u < localN dist p) {y : Nat × Int}
    (hy : y ∈ (inp p).neighbours u) : ∃ l, l < (g p).totalN ∧ glob g p l = y.1 := by
  obtain ⟨l, _, hm⟩ := (W.represents p hp).neighbours u hu
  obtain ⟨x, _, hx⟩ := (mapM_mem hm).2 y hy
  obtain ⟨v, hv, rfl⟩ := Option.map_eq_some_iff.1 hx
  exact ⟨x.1, lt_total hv, by unfold glob; rw [hv]; rfl⟩

/-- The owner of a cluster owns its coarse node. -/
theorem cnode_owned {q c : Nat} (hu : used C (globalN dist) c = true) : (first dist q ≤ c ∧ c < first dist (q + 1)) ↔
    cnode dist C (first dist q) ≤ cnode dist C c ∧ cnode dist C c < cnode dist C (first dist (q + 1)) := by
  constructor
  · intro h
    exact ⟨num_mono h.1, num_lt h.2 hu⟩
  · intro h
    constructor
    · rcases Nat.lt_or_ge c (first dist q) with h' | h'
      · exact absurd (num_lt (C := C) (n := globalN dist) h' hu) (Nat.not_lt.2 h.1)
      · exact h'
    · rcases Nat.lt_or_ge c (first dist (q + 1)) with h' | h'
      · exact h'
      · exact absurd (num_mono (C := C) (n := globalN dist) h') (Nat.not_le.2 h.2)

theorem cdist_global : globalN (cdistOf dist C) = cnode dist C (globalN dist) := by
  unfold globalN
  rw [cdist_procs, cdist_first (Nat.le_refl _)]

variable (K : Clustered dist inp g lab C)
include K

theorem Clustered.global_small : globalN dist < 2 ^ 31 := by
  have h := K.nodes
  have W := K.world
  have h1 : ((List.range (procs dist)).map fun p => localN dist p).sum ≤ ((List.range (procs dist)).map fun p => (g p).totalN).sum :=
    natSum_le fun p hp => W.local_le_total (List.mem_range.1 hp)
  have h2 : ∀ k, k ≤ procs dist → ((List.range k).map fun p => localN dist p).sum = first dist k := by
    intro k
    induction k with
    | zero => intro _; rw [(W.valid 0 W.some_process).zero]; rfl
    | succ k ih =>
      intro hk
      rw [List.range_succ, List.map_append, List.sum_append, ih (by omega), List.map_singleton, List.sum_singleton, W.succ_first (by omega)]
  rw [h2 _ (Nat.le_refl _)] at h1
  exact Nat.lt_of_le_of_lt h1 h

theorem Clustered.cnode_lt {a : Nat} (ha : a < globalN dist) : cnode dist C (C a) < globalN (cdistOf dist C) := by
  rw [cdist_global]
  exact num_lt (K.labels a ha) (used_iff.2 ⟨a, ha, rfl⟩)

/-- The distribution of the coarse nodes is a distribution. -/
theorem Clustered.cvalid {q : Nat} (hq : q < procs dist) : Valid (cdistOf dist C) q ⟨List.replicate (localN (cdistOf dist C) q + 1) 0, [], [], []⟩ := by
  have W := K.world
  have V := W.valid q hq
  have hp := cdist_procs (dist := dist) (C := C)
  have hlen : (cdistOf dist C).length = procs dist + 1 := by
    unfold cdistOf
    rw [List.length_map, List.length_range]
  refine ⟨by omega, ?_, ?_, ?_, List.length_replicate .., ?_, ?_, ?_, ?_, .inl rfl, .inl rfl⟩
  · rw [cdist_first (by omega), V.zero]; rfl
  · intro k hk
    rw [cdist_first (by omega), cdist_first (by omega)]
    exact num_mono (V.sorted k (by unfold procs at hlen hq; omega))
  · show globalN _ < _
    rw [cdist_global]
    exact Nat.lt_of_le_of_lt (num_le _) (Nat.lt_trans K.global_small (by decide))
  · simp
  · intro u hu
    simp
  · simp
  · intro v hv; exact absurd hv List.not_mem_nil

theorem Clustered.nonlocalEdges {p : Nat} (hp : p < procs dist) : nonlocalEdges? (g p) (lab p) = some (raw dist inp C p) := by
  have W := K.world
  have R := W.represents p hp
  unfold nonlocalEdges?
  rw [mapM_some (g := rawOf dist inp C p)]
  · rw [Option.map_some, R.n_eq]
    rfl
  · intro u hu
    rw [R.n_eq] at hu
    have hu := List.mem_range.1 hu
    have hl := Nat.lt_of_lt_of_le hu (W.local_le_total hp)
    obtain ⟨l, h1, h2⟩ := R.neighbours u hu
    have h3 : l.mapM (fun x => (lab p)[x.1]?.map fun cv => (C (first dist p + u), cv, x.2)) =
        some (((inp p).neighbours u).map fun y => (C (first dist p + u), C y.1, y.2)) := by
      refine mapM_comp h2 fun x y _ hxy => ?_
      obtain ⟨v, hv, rfl⟩ := Option.map_eq_some_iff.1 hxy
      rw [K.knows p hp x.1 v hv]
      rfl
    unfold nonlocalOf? rawOf
    rw [K.label hp hl, Option.bind_some, W.isOwned hp, Option.bind_some, W.glob_own hp hu]
    by_cases ho : first dist p ≤ C (first dist p + u) ∧ C (first dist p + u) < first dist (p + 1)
    · rw [if_pos (by simpa using ho), if_pos ho]
    · rw [if_neg (by simpa using ho), if_neg ho, h1, Option.bind_some, h3, Option.map_some]

theorem Clustered.mem_raw {p : Nat} (hp : p < procs dist) {e : GEdge} (he : e ∈ raw dist inp C p) :
    ∃ l l', l < (g p).totalN ∧ l' < (g p).totalN ∧ e.1 = C (glob g p l) ∧ e.2.1 = C (glob g p l') ∧
      ¬(first dist p ≤ e.1 ∧ e.1 < first dist (p + 1)) := by
  have W := K.world
  obtain ⟨u, hu, he⟩ := List.mem_flatMap.1 he
  have hu := List.mem_range.1 hu
  unfold rawOf at he
  by_cases ho : first dist p ≤ C (first dist p + u) ∧ C (first dist p + u) < first dist (p + 1)
  · rw [if_pos ho] at he; exact absurd he List.not_mem_nil
  · rw [if_neg ho] at he
    obtain ⟨y, hy, rfl⟩ := List.mem_map.1 (List.mem_filter.1 he).1
    obtain ⟨l', hl', h'⟩ := W.neighbour_local hp hu hy
    exact ⟨u, l', Nat.lt_of_lt_of_le hu (W.local_le_total hp), hl', by rw [W.glob_own hp hu], by rw [h'], ho⟩

variable (hS : ∀ p, p < procs dist → (S p).Ok)
include hS

theorem Clustered.mem_merged {p : Nat} (hp : p < procs dist) {e : GEdge} (he : e ∈ mergeRuns ((S p).sortPairs (raw dist inp C p))) :
    ∃ l l', l < (g p).totalN ∧ l' < (g p).totalN ∧ e.1 = C (glob g p l) ∧ e.2.1 = C (glob g p l') ∧
      ¬(first dist p ≤ e.1 ∧ e.1 < first dist (p + 1)) := by
  have h1 : (e.1, e.2.1) ∈ ends ((S p).sortPairs (raw dist inp C p)) := (ends_mergeRuns _ _).1 (List.mem_map.2 ⟨e, he, rfl⟩)
  obtain ⟨e', h2, h3⟩ := List.mem_map.1 h1
  obtain ⟨l, l', h4⟩ := K.mem_raw hp (((hS p hp).pairs _).1.mem_iff.1 h2)
  injection h3 with h5 h6
  rw [h5, h6] at h4
  exact ⟨l, l', h4⟩

theorem Clustered.outEdges {p : Nat} (hp : p < procs dist) : outEdges? S (procs dist) g lab p = some (outE S dist inp C p) := by
  have ht := K.foreignMapping hS hp
  unfold outEdges?
  rw [K.coarseDist hS, Option.bind_some, K.mapping hS hp, Option.bind_some, ht, Option.bind_some]
  unfold sentEdges?
  rw [K.nonlocalEdges hp, Option.bind_some]
  refine mapM_some fun e he => ?_
  obtain ⟨l, l', hl, hl', h1, h2, _⟩ := K.mem_merged hS hp he
  rw [h1, h2, K.gcnode hS hp hl ht, Option.bind_some, K.gcnode hS hp hl' ht, Option.map_some]

theorem Clustered.out_mem {p : Nat} (hp : p < procs dist) {e : GEdge} (he : e ∈ outE S dist inp C p) :
    e.1 < globalN (cdistOf dist C) ∧ e.2.1 < globalN (cdistOf dist C) ∧ ow (cdistOf dist C) e.1 ≠ p := by
  have W := K.world
  obtain ⟨e', he', rfl⟩ := List.mem_map.1 he
  obtain ⟨l, l', hl, hl', h1, h2, h3⟩ := K.mem_merged hS hp he'
  have hlt := K.cnode_lt (W.glob_some hp hl).2
  rw [← h1] at hlt
  refine ⟨hlt, by rw [h2]; exact K.cnode_lt (W.glob_some hp hl').2, fun h => h3 ?_⟩
  rw [cnode_owned (by rw [h1]; exact K.label_used hp hl), ← cdist_first (by omega), ← cdist_first (by omega)]
  exact ((K.cvalid hp).ow_eq (by rw [cdist_procs]; exact hp) hlt).1 h

theorem Clustered.out_sorted {p : Nat} (hp : p < procs dist) : (outE S dist inp C p).Pairwise fun a b => a.1 ≤ b.1 := by
  have h1 : ((S p).sortPairs (raw dist inp C p)).Pairwise fun a b => a.1 ≤ b.1 :=
    (((hS p hp).pairs (raw dist inp C p)).2).imp fun h => by rcases h with h | h <;> omega
  have h2 := (List.pairwise_map.2 h1 : (((S p).sortPairs (raw dist inp C p)).map (·.1)).Pairwise (· ≤ ·))
  have h3 := List.pairwise_map.1 (h2.sublist (sources_mergeRuns _))
  unfold outE
  exact List.pairwise_map.2 (h3.imp fun h => num_mono h)

omit hS K in
theorem Valid.degrees {p : Nat} {i : Input} (V : Valid dist p i) {k : Nat} (hk : k ≤ localN dist p) :
    ((List.range k).map fun u => (i.neighbours u).length).sum = i.xadj.getD k 0 := by
  induction k with
  | zero => rw [V.xadj_zero]; rfl
  | succ k ih =>
    have := V.xadj_sorted k (by omega)
    rw [List.range_succ, List.map_append, List.sum_append, ih (by omega), List.map_singleton, List.sum_singleton]
    unfold Input.neighbours
    rw [List.length_map, List.length_range']
    omega

theorem Clustered.out_length {p : Nat} (hp : p < procs dist) : (outE S dist inp C p).length ≤ (inp p).adjncy.length := by
  have V := K.world.valid p hp
  unfold outE
  rw [List.length_map]
  refine Nat.le_trans (length_mergeRuns _) ?_
  rw [((hS p hp).pairs _).1.length_eq]
  unfold raw
  rw [List.length_flatMap, ← V.xadj_last, ← V.degrees (Nat.le_refl _)]
  refine natSum_le fun u _ => ?_
  unfold rawOf
  split
  · exact Nat.zero_le _
  · exact Nat.le_trans (List.length_filter_le _ _) (by rw [List.length_map])

theorem Clustered.out_small : ((List.range (procs dist)).map fun p => (outE S dist inp C p).length).sum < 2 ^ 31 :=
  Nat.lt_of_le_of_lt (natSum_le fun p hp => K.out_length hS (List.mem_range.1 hp)) K.edges

/-- The edges that process `q` receives. -/
def gotE (S : Nat → Orders) (dist : List Nat) (inp : Nat → Input) (C : Nat → Nat) (q : Nat) : List GEdge :=
  (List.range (procs dist)).flatMap fun p => (outE S dist inp C p).filter fun e => decide (ow (cdistOf dist C) e.1 = q)

/-- The received edges with local IDs of the sources, sorted by them. -/
def inE (S : Nat → Orders) (dist : List Nat) (inp : Nat → Input) (C : Nat → Nat) (q : Nat) : List GEdge :=
  ((S q).sortSources (gotE S dist inp C q)).map fun e => (e.1 - first (cdistOf dist C) q, e.2)

theorem Clustered.got_mem {q : Nat} (hq : q < procs dist) {e : GEdge} (he : e ∈ gotE S dist inp C q) :
    first (cdistOf dist C) q ≤ e.1 ∧ e.1 < first (cdistOf dist C) (q + 1) ∧ e.2.1 < globalN (cdistOf dist C) := by
  obtain ⟨p, hp, he⟩ := List.mem_flatMap.1 he
  rw [List.mem_filter] at he
  obtain ⟨h1, h2, _⟩ := K.out_mem hS (List.mem_range.1 hp) he.1
  have := ((K.cvalid hq).ow_eq (by rw [cdist_procs]; exact hq) h1).1 (of_decide_eq_true he.2)
  exact ⟨this.1, this.2, h2⟩

theorem Clustered.inEdges {q : Nat} (hq : q < procs dist) : inEdges? S (procs dist) g lab q = some (inE S dist inp C q) := by
  unfold inEdges?
  rw [K.coarseDist hS, Option.bind_some]
  have h : alltoallv? (procs dist) (outEdges? S (procs dist) g lab)
      (fun p => (outEdges? S (procs dist) g lab p).bind (edgeCounts? (S p) (procs dist) (cdistOf dist C))) q = some (gotE S dist inp C q) := by
    refine alltoallv_ok (o := fun _ e => ow (cdistOf dist C) e.1) (B := outE S dist inp C) ?_ ?_ ?_ (K.out_small hS) hq
    · intro p hp; exact K.outEdges hS hp
    · intro p hp
      rw [K.outEdges hS hp, Option.bind_some]
      have h := edgeCounts_ok (K.cvalid hp) (hS p hp) (fun e he => (K.out_mem hS hp he).1) (K.out_sorted hS hp)
      rw [cdist_procs] at h
      exact h
    · intro p hp
      have h := K.out_sorted hS hp
      refine List.Pairwise.imp_of_mem (fun {a b} _ hb h => ?_) h
      exact (K.cvalid hp).ow_mono (K.out_mem hS hp hb).1 h
  rw [h, Option.bind_some]
  unfold localizeEdges?
  rw [(K.world.represents q hq).rank_eq, cdist_get (by omega), Option.bind_some]
  refine mapM_some fun e he => ?_
  rw [((hS q hq).sources _).1.mem_iff] at he
  have := (K.got_mem hS hq he).1
  rw [cdist_first (by omega)] at this
  rw [if_pos this, cdist_first (by omega)]

theorem Clustered.in_length {q : Nat} (hq : q < procs dist) : (inE S dist inp C q).length < 2 ^ 31 := by
  refine Nat.lt_of_le_of_lt ?_ (K.out_small hS)
  unfold inE
  rw [List.length_map, ((hS q hq).sources _).1.length_eq]
  unfold gotE
  rw [List.length_flatMap]
  exact natSum_le fun p _ => List.length_filter_le _ _

theorem Clustered.in_mem {q : Nat} (hq : q < procs dist) {e : GEdge} (he : e ∈ inE S dist inp C q) :
    e.1 < localN (cdistOf dist C) q ∧ e.2.1 < globalN (cdistOf dist C) := by
  obtain ⟨e', he', rfl⟩ := List.mem_map.1 he
  rw [((hS q hq).sources _).1.mem_iff] at he'
  obtain ⟨h1, h2, h3⟩ := K.got_mem hS hq he'
  refine ⟨?_, h3⟩
  unfold localN
  show e'.1 - _ < _
  omega

theorem Clustered.in_sorted {q : Nat} (hq : q < procs dist) : (inE S dist inp C q).Pairwise fun a b => a.1 ≤ b.1 := by
  unfold inE
  refine List.pairwise_map.2 ((((hS q hq).sources _).2).imp fun h => ?_)
  show _ - _ ≤ _ - _
  omega

/-- The targets of the edges that process `p` sends for the coarse node `x`. -/
def outOf (S : Nat → Orders) (dist : List Nat) (inp : Nat → Input) (C : Nat → Nat) (p x : Nat) : List (Nat × Int) :=
  ((outE S dist inp C p).filter fun e => decide (e.1 = x)).map (·.2)

/-- The received edges of a coarse node. -/
theorem Clustered.in_of {q lcu : Nat} (hq : q < procs dist) (hl : lcu < localN (cdistOf dist C) q) :
    (((inE S dist inp C q).filter fun e => decide (e.1 = lcu)).map (·.2)).Perm
      ((List.range (procs dist)).flatMap fun p => outOf S dist inp C p (first (cdistOf dist C) q + lcu)) := by
  have V := K.cvalid hq
  have hx : first (cdistOf dist C) q + lcu < first (cdistOf dist C) (q + 1) := by unfold localN at hl; omega
  unfold inE
  rw [List.filter_map, List.map_map]
  refine ((((hS q hq).sources _).1.filter _).map _).trans (List.Perm.of_eq ?_)
  have h1 : (gotE S dist inp C q).filter ((fun e => decide (e.1 = lcu)) ∘ fun e : GEdge => (e.1 - first (cdistOf dist C) q, e.2)) =
      (gotE S dist inp C q).filter fun e => decide (e.1 = first (cdistOf dist C) q + lcu) := by
    refine List.filter_congr fun e he => ?_
    have := (K.got_mem hS hq he).1
    show decide (e.1 - first (cdistOf dist C) q = lcu) = _
    rw [decide_eq_decide]
    omega
  rw [h1]
  unfold gotE
  rw [List.filter_flatMap, List.map_flatMap]
  refine List.flatMap_congr fun p hp => ?_
  rw [List.filter_filter]
  unfold outOf
  rw [List.filter_congr fun e he => ?_]
  · rfl
  · by_cases h : e.1 = first (cdistOf dist C) q + lcu
    · rw [decide_eq_true h, Bool.true_and]
      refine decide_eq_true (((K.cvalid hq).ow_eq (by rw [cdist_procs]; exact hq) (K.out_mem hS (List.mem_range.1 hp) he).1).2 ?_)
      omega
    · rw [decide_eq_false h, Bool.false_and]

/-! ## What is sent for a coarse node -/

omit K hS in
theorem total_out (p x y : Nat) : total y (outOf S dist inp C p x) = wsum (fun a b => decide (a = x ∧ b = y)) (outE S dist inp C p) := by
  unfold total outOf wsum
  rw [List.filter_map, List.filter_filter, List.map_map]
  congr 2
  refine List.filter_congr fun e _ => ?_
  show (decide (e.2.1 = y) && decide (e.1 = x)) = _
  by_cases h1 : e.1 = x <;> by_cases h2 : e.2.1 = y <;> simp [h1, h2]

omit K hS in
theorem keys_out {p x y : Nat} : y ∈ (outOf S dist inp C p x).map (·.1) ↔ (x, y) ∈ ends (outE S dist inp C p) := by
  unfold outOf ends
  rw [List.map_map, List.mem_map, List.mem_map]
  constructor
  · rintro ⟨e, he, rfl⟩
    rw [List.mem_filter] at he
    exact ⟨e, he.1, by rw [of_decide_eq_true he.2]; rfl⟩
  · rintro ⟨e, he, h⟩
    injection h with h1 h2
    exact ⟨e, List.mem_filter.2 ⟨he, decide_eq_true h1⟩, h2⟩

theorem Clustered.out_own {q x y : Nat} (hq : q < procs dist) (h1 : first (cdistOf dist C) q ≤ x) (h2 : x < first (cdistOf dist C) (q + 1)) :
    total y (outOf S dist inp C q x) = 0 ∧ y ∉ (outOf S dist inp C q x).map (·.1) := by
  have hno : outOf S dist inp C q x = [] := by
    unfold outOf
    rw [List.filter_eq_nil_iff.2, List.map_nil]
    intro e he h
    obtain ⟨h3, _, h4⟩ := K.out_mem hS hq he
    have h := of_decide_eq_true h
    exact h4 (((K.cvalid hq).ow_eq (by rw [cdist_procs]; exact hq) h3).2 (by rw [h]; exact ⟨h1, h2⟩))
  rw [hno]
  exact ⟨rfl, List.not_mem_nil⟩

omit hS in
/-- A node of process `p` in a coarse node of another process is in a cluster of another process. -/
theorem Clustered.not_owned {p q u x : Nat} (hp : p < procs dist) (hq : q < procs dist) (hpq : p ≠ q) (hu : u < localN dist p)
    (h1 : first (cdistOf dist C) q ≤ x) (h2 : x < first (cdistOf dist C) (q + 1)) (hx : cnode dist C (C (first dist p + u)) = x) :
    ¬(first dist p ≤ C (first dist p + u) ∧ C (first dist p + u) < first dist (p + 1)) := by
  have W := K.world
  have ha := owned_lt W hp hu
  rw [cnode_owned (used_iff.2 ⟨_, ha, rfl⟩), ← cdist_first (by omega), ← cdist_first (by omega), hx]
  intro h
  have hxg : x < globalN (cdistOf dist C) := by rw [← hx]; exact K.cnode_lt ha
  have e1 := ((K.cvalid hq).ow_eq (by rw [cdist_procs]; exact hq) hxg).2 ⟨h1, h2⟩
  have e2 := ((K.cvalid hp).ow_eq (by rw [cdist_procs]; exact hp) hxg).2 h
  omega

theorem Clustered.out_total {p q x y : Nat} (hp : p < procs dist) (hq : q < procs dist) (hpq : p ≠ q) (hxy : x ≠ y)
    (h1 : first (cdistOf dist C) q ≤ x) (h2 : x < first (cdistOf dist C) (q + 1)) : total y (outOf S dist inp C p x) =
      wsum (fun a b => decide (cnode dist C (C a) = x ∧ cnode dist C (C b) = y)) ((List.range (localN dist p)).flatMap (fineOf dist inp p)) := by
  rw [total_out]
  unfold outE
  have hid := wsum_map_eq (φ := fun a b => decide (a = x ∧ b = y)) (ψ := fun a b => decide (cnode dist C a = x ∧ cnode dist C b = y))
    (F := fun e : GEdge => (cnode dist C e.1, cnode dist C e.2.1, e.2.2)) (G := id) (l := mergeRuns ((S p).sortPairs (raw dist inp C p)))
    (fun _ _ => rfl) (fun _ _ => rfl)
  rw [hid, List.map_id, wsum_mergeRuns, wsum_perm _ ((hS p hp).pairs _).1]
  unfold raw
  rw [wsum_flatMap, wsum_flatMap]
  congr 1
  refine List.map_congr_left fun u hu => ?_
  have hu := List.mem_range.1 hu
  unfold rawOf
  by_cases ho : first dist p ≤ C (first dist p + u) ∧ C (first dist p + u) < first dist (p + 1)
  · rw [if_pos ho]
    refine Eq.symm (wsum_zero fun e he => ?_)
    obtain ⟨y', _, rfl⟩ := List.mem_map.1 he
    exact decide_eq_false fun h => K.not_owned hp hq hpq hu h1 h2 h.1 ho
  · rw [if_neg ho, wsum_filter]
    · exact wsum_map_eq (fun _ _ => rfl) fun _ _ => rfl
    · intro e he h
      obtain ⟨y', _, rfl⟩ := List.mem_map.1 he
      have h := of_decide_eq_true h
      refine decide_eq_true fun hc => hxy ?_
      rw [← h.1, ← h.2]
      show cnode dist C (C (first dist p + u)) = cnode dist C (C y'.1)
      rw [hc]

theorem Clustered.out_keys {p q x y : Nat} (hp : p < procs dist) (hq : q < procs dist) (hpq : p ≠ q) (hxy : x ≠ y)
    (h1 : first (cdistOf dist C) q ≤ x) (h2 : x < first (cdistOf dist C) (q + 1)) : y ∈ (outOf S dist inp C p x).map (·.1) ↔
      ∃ e, e ∈ (List.range (localN dist p)).flatMap (fineOf dist inp p) ∧ cnode dist C (C e.1) = x ∧ cnode dist C (C e.2.1) = y := by
  rw [keys_out]
  have hm : (x, y) ∈ ends (outE S dist inp C p) ↔ ∃ c d, (c, d) ∈ ends (raw dist inp C p) ∧ cnode dist C c = x ∧ cnode dist C d = y := by
    constructor
    · intro h
      obtain ⟨e', he', h⟩ := List.mem_map.1 h
      obtain ⟨e, he, rfl⟩ := List.mem_map.1 he'
      injection h with h3 h4
      have := (ends_mergeRuns (e.1, e.2.1) _).1 (List.mem_map.2 ⟨e, he, rfl⟩)
      obtain ⟨e2, he2, h5⟩ := List.mem_map.1 this
      exact ⟨e.1, e.2.1, List.mem_map.2 ⟨e2, ((hS p hp).pairs _).1.mem_iff.1 he2, h5⟩, h3, h4⟩
    · rintro ⟨c, d, h, rfl, rfl⟩
      obtain ⟨e2, he2, h5⟩ := List.mem_map.1 h
      have := (ends_mergeRuns (c, d) ((S p).sortPairs (raw dist inp C p))).2 (List.mem_map.2 ⟨e2, ((hS p hp).pairs _).1.mem_iff.2 he2, h5⟩)
      obtain ⟨e, he, h6⟩ := List.mem_map.1 this
      injection h6 with h7 h8
      exact List.mem_map.2 ⟨_, List.mem_map.2 ⟨e, he, rfl⟩, by rw [← h7, ← h8]⟩
  rw [hm]
  constructor
  · rintro ⟨c, d, h, hc, hd⟩
    obtain ⟨e, he, h3⟩ := List.mem_map.1 h
    injection h3 with h4 h5
    obtain ⟨u, hu, he⟩ := List.mem_flatMap.1 he
    unfold rawOf at he
    by_cases ho : first dist p ≤ C (first dist p + u) ∧ C (first dist p + u) < first dist (p + 1)
    · rw [if_pos ho] at he; exact absurd he List.not_mem_nil
    · rw [if_neg ho] at he
      obtain ⟨y', hy', rfl⟩ := List.mem_map.1 (List.mem_filter.1 he).1
      exact ⟨_, List.mem_flatMap.2 ⟨u, hu, List.mem_map.2 ⟨y', hy', rfl⟩⟩, by rw [← hc, ← h4], by rw [← hd, ← h5]⟩
  · rintro ⟨e, he, h3, h4⟩
    obtain ⟨u, hu, he⟩ := List.mem_flatMap.1 he
    obtain ⟨y', hy', rfl⟩ := List.mem_map.1 he
    refine ⟨C (first dist p + u), C y'.1, List.mem_map.2 ⟨(C (first dist p + u), C y'.1, y'.2), List.mem_flatMap.2 ⟨u, hu, ?_⟩, rfl⟩, h3, h4⟩
    unfold rawOf
    rw [if_neg (K.not_owned hp hq hpq (List.mem_range.1 hu) h1 h2 h3)]
    refine List.mem_filter.2 ⟨List.mem_map.2 ⟨y', hy', rfl⟩, decide_eq_true fun hc => hxy ?_⟩
    rw [← h3, ← h4]
    show cnode dist C (C (first dist p + u)) = cnode dist C (C y'.1)
    rw [hc]

end Verif.Dist
