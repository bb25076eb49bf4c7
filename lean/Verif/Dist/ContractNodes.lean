import Verif.Dist.ContractLists
import Verif.Dist.ContractSpec

/-!
# The numbering of the clusters, for the proof of C73
-/

namespace Verif.Dist
open Verif.Math

/-! ## The number of a cluster -/

/-- Some node is in cluster `c`. -/
def used (C : Nat → Nat) (n c : Nat) : Bool := (List.range n).any fun a => C a == c

theorem used_iff {C : Nat → Nat} {n c : Nat} : used C n c = true ↔ ∃ a, a < n ∧ C a = c := by
  unfold used
  rw [List.any_eq_true]
  constructor
  · rintro ⟨a, h1, h2⟩; exact ⟨a, List.mem_range.1 h1, by simpa using h2⟩
  · rintro ⟨a, h1, h2⟩; exact ⟨a, List.mem_range.2 h1, by simpa using h2⟩

/-- The number of clusters before `c` that have nodes. -/
def num (C : Nat → Nat) (n c : Nat) : Nat := (List.range c).countP (used C n)

variable {C : Nat → Nat} {n : Nat}

theorem num_succ (c : Nat) : num C n (c + 1) = num C n c + if used C n c = true then 1 else 0 := by
  unfold num
  rw [List.range_succ, List.countP_append, List.countP_cons, List.countP_nil, Nat.zero_add]

theorem num_add (c d : Nat) : num C n (c + d) = num C n c + (List.range d).countP fun j => used C n (c + j) := by
  unfold num
  rw [List.range_add, List.countP_append, List.countP_map]
  rfl

theorem num_mono {c d : Nat} (h : c ≤ d) : num C n c ≤ num C n d := by
  rw [show d = c + (d - c) by omega, num_add]
  omega

theorem num_lt {c d : Nat} (h : c < d) (hu : used C n c = true) : num C n c < num C n d := by
  have h1 := num_succ (C := C) (n := n) c
  rw [if_pos hu] at h1
  have := num_mono (C := C) (n := n) (show c + 1 ≤ d by omega)
  omega

theorem num_inj {c d : Nat} (hc : used C n c = true) (hd : used C n d = true) (h : num C n c = num C n d) : c = d := by
  rcases Nat.lt_trichotomy c d with h' | h' | h'
  · have := num_lt h' hc; omega
  · exact h'
  · have := num_lt h' hd; omega

theorem num_le_iff {c d : Nat} (hc : used C n c = true) (hd : used C n d = true) : num C n c ≤ num C n d ↔ c ≤ d := by
  constructor
  · intro h
    rcases Nat.lt_or_ge d c with h' | h'
    · have := num_lt h' hd; omega
    · exact h'
  · exact num_mono

theorem num_surj {x : Nat} : ∀ m, x < num C n m → ∃ c, c < m ∧ used C n c = true ∧ num C n c = x
  | 0, h => by simp [num] at h
  | m + 1, h => by
    rcases Nat.lt_or_ge x (num C n m) with h' | h'
    · obtain ⟨c, h1, h2⟩ := num_surj m h'
      exact ⟨c, by omega, h2⟩
    · rw [num_succ] at h
      by_cases hu : used C n m = true
      · rw [if_pos hu] at h
        exact ⟨m, by omega, hu, by omega⟩
      · rw [if_neg hu] at h
        omega

theorem num_le (c : Nat) : num C n c ≤ c := by
  have := List.countP_le_length (p := used C n) (l := List.range c)
  rw [List.length_range] at this
  exact this

/-! ## Owners -/

section
variable {dist : List Nat} {inp : Nat → Input} {g : Nat → DGraph} {lab : Nat → List Nat}

/-- The process that owns a global ID. -/
abbrev ow (dist : List Nat) (c : Nat) : Nat := findInDistribution c dist

theorem Valid.ow_bounds {r : Nat} {i : Input} (V : Valid dist r i) {c : Nat} (hc : c < globalN dist) :
    ow dist c < procs dist ∧ first dist (ow dist c) ≤ c ∧ c < first dist (ow dist c + 1) := by
  have h := V.owner hc
  exact ⟨h.lt, (V.owns_iff' h.lt).1 h⟩

theorem World.ow_bounds (W : World dist inp g) {c : Nat} (hc : c < globalN dist) :
    ow dist c < procs dist ∧ first dist (ow dist c) ≤ c ∧ c < first dist (ow dist c + 1) := (W.valid 0 W.some_process).ow_bounds hc

theorem Valid.ow_eq {r : Nat} {i : Input} (V : Valid dist r i) {c q : Nat} (hq : q < procs dist) (hc : c < globalN dist) :
    ow dist c = q ↔ first dist q ≤ c ∧ c < first dist (q + 1) := by
  constructor
  · rintro rfl
    exact (V.ow_bounds hc).2
  · intro h
    exact V.owns_unique (V.owner hc) ((V.owns_iff' hq).2 h)

theorem World.ow_eq (W : World dist inp g) {c q : Nat} (hq : q < procs dist) (hc : c < globalN dist) :
    ow dist c = q ↔ first dist q ≤ c ∧ c < first dist (q + 1) := (W.valid 0 W.some_process).ow_eq hq hc

theorem World.lt_global (W : World dist inp g) {c q : Nat} (hq : q < procs dist) (h : c < first dist (q + 1)) : c < globalN dist :=
  Nat.lt_of_lt_of_le h ((W.valid q hq).mono (by omega) (by unfold procs at hq ⊢; omega))

theorem Valid.ow_mono {r : Nat} {i : Input} (V : Valid dist r i) {c d : Nat} (hd : d < globalN dist) (h : c ≤ d) : ow dist c ≤ ow dist d := by
  have h1 := V.ow_bounds (Nat.lt_of_le_of_lt h hd)
  have h2 := V.ow_bounds hd
  rcases Nat.lt_or_ge (ow dist d) (ow dist c) with h' | h'
  · have := V.mono (i := ow dist d + 1) (j := ow dist c) (by omega) (by have := h1.1; unfold procs at this; omega)
    omega
  · exact h'

theorem World.ow_mono (W : World dist inp g) {c d : Nat} (hd : d < globalN dist) (h : c ≤ d) : ow dist c ≤ ow dist d :=
  (W.valid 0 W.some_process).ow_mono hd h

theorem World.isOwned (W : World dist inp g) {p : Nat} (hp : p < procs dist) (c : Nat) :
    (g p).isOwnedGlobal? c = some (decide (first dist p ≤ c ∧ c < first dist (p + 1))) := by
  have R := W.represents p hp
  have V := W.valid p hp
  have hs := V.sorted p (by unfold procs at hp; exact hp)
  unfold DGraph.isOwnedGlobal? DGraph.offset?
  rw [R.rank_eq, R.dist_eq, getD_some (by unfold procs at hp; omega), Option.map_some, R.n_eq]
  have : first dist p + localN dist p = first dist (p + 1) := by unfold localN; omega
  congr 2
  show (first dist p ≤ c ∧ c < first dist p + localN dist p) = _
  rw [this]

theorem World.offset (W : World dist inp g) {p : Nat} (hp : p < procs dist) : (g p).offset? = some (first dist p) := by
  have R := W.represents p hp
  unfold DGraph.offset?
  rw [R.rank_eq, R.dist_eq]
  exact getD_some (by unfold procs at hp; omega)

/-- The global ID of a local node. -/
def glob (g : Nat → DGraph) (p l : Nat) : Nat := ((g p).localToGlobal? l).getD 0

theorem World.glob_some (W : World dist inp g) {p l : Nat} (hp : p < procs dist) (hl : l < (g p).totalN) :
    (g p).localToGlobal? l = some (glob g p l) ∧ glob g p l < globalN dist := by
  have R := W.represents p hp
  have V := W.valid p hp
  rcases Nat.lt_or_ge l (localN dist p) with h | h
  · have h1 := R.own l h
    have h2 : glob g p l = first dist p + l := by unfold glob; rw [h1]; rfl
    rw [h2]
    exact ⟨h1, owned_lt W hp h⟩
  · obtain ⟨v, q, h1, _, _, h3, _⟩ := R.ghost l h hl
    have h2 : glob g p l = v := by unfold glob; rw [h1]; rfl
    rw [h2]
    exact ⟨h1, W.lt_global h3.lt ((V.owns_iff' h3.lt).1 h3).2⟩

theorem World.glob_own (W : World dist inp g) {p l : Nat} (hp : p < procs dist) (hl : l < localN dist p) : glob g p l = first dist p + l := by
  unfold glob
  rw [(W.represents p hp).own l hl]
  rfl

theorem World.local_le_total (W : World dist inp g) {p : Nat} (hp : p < procs dist) : localN dist p ≤ (g p).totalN := by
  rw [(W.represents p hp).total]; omega

theorem World.succ_first (W : World dist inp g) {p : Nat} (hp : p < procs dist) : first dist p + localN dist p = first dist (p + 1) := by
  have := (W.valid p hp).sorted p (by unfold procs at hp; exact hp)
  unfold localN; omega

variable (K : Clustered dist inp g lab C)
include K

theorem Clustered.label {p l : Nat} (hp : p < procs dist) (hl : l < (g p).totalN) : (lab p)[l]? = some (C (glob g p l)) :=
  K.knows p hp l _ (K.world.glob_some hp hl).1

theorem Clustered.label_lt {p l : Nat} (hp : p < procs dist) (hl : l < (g p).totalN) : C (glob g p l) < globalN dist :=
  K.labels _ (K.world.glob_some hp hl).2

theorem Clustered.label_used {p l : Nat} (hp : p < procs dist) (hl : l < (g p).totalN) : used C (globalN dist) (C (glob g p l)) = true :=
  used_iff.2 ⟨_, (K.world.glob_some hp hl).2, rfl⟩

theorem Clustered.total_lt {p : Nat} (hp : p < procs dist) : (g p).totalN < 2 ^ 31 :=
  Nat.lt_of_le_of_lt (le_natSum (f := fun p => (g p).totalN) (List.mem_range.2 hp)) K.nodes

end

/-! ## Nodes in clusters of other processes -/

section
variable {dist : List Nat} {inp : Nat → Input} {g : Nat → DGraph} {lab : Nat → List Nat} {S : Nat → Orders}

/-- The contribution of one node to the list of the nodes in clusters of other processes. -/
def item (dist : List Nat) (inp : Nat → Input) (g : Nat → DGraph) (C : Nat → Nat) (p l : Nat) : List (Nat × Int) :=
  if first dist p ≤ C (glob g p l) ∧ C (glob g p l) < first dist (p + 1) then []
  else [(C (glob g p l), if l < localN dist p then (inp p).nodeWeight l else 0)]

/-- The list that process `p` sends. -/
def sent (S : Nat → Orders) (dist : List Nat) (inp : Nat → Input) (g : Nat → DGraph) (C : Nat → Nat) (p : Nat) : List (Nat × Int) :=
  (S p).sortNodes (addAll ((List.range (g p).totalN).flatMap (item dist inp g C p)) [])

theorem item_length (p l : Nat) : (item dist inp g C p l).length ≤ 1 := by
  unfold item
  split
  · exact Nat.zero_le _
  · exact Nat.le_refl _

variable (K : Clustered dist inp g lab C)
include K

theorem Clustered.sentNodes {p : Nat} (hp : p < procs dist) : sentNodes? S g lab p = some (sent S dist inp g C p) := by
  have W := K.world
  have R := W.represents p hp
  have key : ∀ (ls : List Nat) (t : List (Nat × Int)), (∀ l, l ∈ ls → l < (g p).totalN) →
      ls.foldlM (nonlocalStep? (g p) (lab p)) t = some (addAll (ls.flatMap (item dist inp g C p)) t) := by
    intro ls
    induction ls with
    | nil => intro t _; rfl
    | cons l ls ih =>
      intro t h
      have hl := h l List.mem_cons_self
      have hstep : nonlocalStep? (g p) (lab p) t l = some (addAll (item dist inp g C p l) t) := by
        unfold nonlocalStep?
        rw [K.label hp hl, Option.bind_some, W.isOwned hp, Option.bind_some]
        unfold item
        by_cases ho : first dist p ≤ C (glob g p l) ∧ C (glob g p l) < first dist (p + 1)
        · rw [if_pos ho, if_pos (by simpa using ho)]
          rfl
        · rw [if_neg ho, if_neg (by simpa using ho), R.n_eq]
          by_cases hn : l < localN dist p
          · rw [if_pos hn, if_pos hn, R.node_weight l hn]
            rfl
          · rw [if_neg hn, if_neg hn]
            rfl
      rw [List.foldlM_cons, hstep]
      show ls.foldlM (nonlocalStep? (g p) (lab p)) (addAll (item dist inp g C p l) t) = _
      rw [ih _ fun x hx => h x (List.mem_cons_of_mem _ hx), List.flatMap_cons]
      unfold addAll
      rw [List.foldl_append]
  unfold sentNodes? nonlocalNodes?
  rw [key _ _ fun l hl => List.mem_range.1 hl]
  rfl

variable (hS : ∀ p, p < procs dist → (S p).Ok)
include hS

theorem Clustered.sent_keys {p c : Nat} (hp : p < procs dist) : c ∈ (sent S dist inp g C p).map (·.1) ↔
    (∃ l, l < (g p).totalN ∧ C (glob g p l) = c) ∧ ¬ (first dist p ≤ c ∧ c < first dist (p + 1)) := by
  unfold sent
  rw [(((hS p hp).nodes _).1.map (·.1)).mem_iff, addAll_mem, List.map_nil, List.map_flatMap, List.mem_flatMap]
  constructor
  · rintro (h | ⟨l, hl, h⟩)
    · exact absurd h List.not_mem_nil
    · unfold item at h
      by_cases ho : first dist p ≤ C (glob g p l) ∧ C (glob g p l) < first dist (p + 1)
      · rw [if_pos ho] at h; exact absurd h List.not_mem_nil
      · rw [if_neg ho, List.map_singleton, List.mem_singleton] at h
        exact ⟨⟨l, List.mem_range.1 hl, h.symm⟩, by rw [h]; exact ho⟩
  · rintro ⟨⟨l, hl, rfl⟩, ho⟩
    refine .inr ⟨l, List.mem_range.2 hl, ?_⟩
    unfold item
    rw [if_neg ho]
    exact List.mem_singleton.2 rfl

omit K in
theorem sent_total {p : Nat} (hp : p < procs dist) (c : Nat) : total c (sent S dist inp g C p) =
    ((List.range (g p).totalN).map fun l => total c (item dist inp g C p l)).sum := by
  unfold sent
  rw [total_perm c ((hS p hp).nodes _).1, addAll_total, total_nil, Int.zero_add, total_flatMap]

omit K in
theorem sent_length {p : Nat} (hp : p < procs dist) : (sent S dist inp g C p).length ≤ (g p).totalN := by
  have h1 : ∀ (l t : List (Nat × Int)), (addAll l t).length ≤ l.length + t.length := by
    intro l
    induction l with
    | nil => intro t; exact Nat.le_add_left _ _
    | cons x l ih =>
      intro t
      have h2 : (addTo x.1 x.2 t).length ≤ t.length + 1 := by
        have := congrArg List.length (addTo_keys x.1 x.2 t)
        rw [List.length_map] at this
        rw [this]
        split
        · rw [List.length_map]; omega
        · rw [List.length_append, List.length_map, List.length_singleton]
      have := ih (addTo x.1 x.2 t)
      show (addAll l (addTo x.1 x.2 t)).length ≤ _
      rw [List.length_cons]
      omega
  unfold sent
  rw [((hS p hp).nodes _).1.length_eq]
  refine Nat.le_trans (h1 _ _) ?_
  rw [List.length_nil, Nat.add_zero, List.length_flatMap]
  have := natSum_le (l := List.range (g p).totalN) (f := fun l => (item dist inp g C p l).length) (h := fun _ => 1) fun l _ => item_length p l
  refine Nat.le_trans this ?_
  rw [List.map_const', List.sum_replicate, List.length_range]
  simp

omit K in
theorem sent_nodup {p : Nat} (hp : p < procs dist) : ((sent S dist inp g C p).map (·.1)).Nodup := by
  unfold sent
  rw [(((hS p hp).nodes _).1.map (·.1)).nodup_iff]
  exact addAll_nodup _ _ List.nodup_nil

theorem Clustered.sent_lt {p : Nat} (hp : p < procs dist) {x : Nat × Int} (hx : x ∈ sent S dist inp g C p) : x.1 < globalN dist := by
  obtain ⟨⟨l, hl, h⟩, _⟩ := (K.sent_keys hS hp).1 (List.mem_map_of_mem (f := (·.1)) hx)
  rw [← h]
  exact K.label_lt hp hl

theorem Clustered.sent_sorted {p : Nat} (hp : p < procs dist) :
    (sent S dist inp g C p).Pairwise fun a b => ow dist a.1 ≤ ow dist b.1 := by
  have h : (sent S dist inp g C p).Pairwise fun a b => a.1 ≤ b.1 := ((hS p hp).nodes _).2
  exact h.imp_of_mem fun _ hb h => K.world.ow_mono (K.sent_lt hS hp hb) h

theorem Clustered.sentCounts {p : Nat} (hp : p < procs dist) : sentNodeCounts? S (procs dist) g lab p =
    some ((List.range (procs dist)).map fun q => (sent S dist inp g C p).countP fun x => decide (ow dist x.1 = q)) := by
  unfold sentNodeCounts? nodeCounts?
  rw [K.sentNodes hp, Option.bind_some]
  have hfo : (fun (num : Nat → Nat) (x : Nat × Int) => countFor? (procs dist) num ((g p).findOwner x.1)) =
      fun num x => countFor? (procs dist) num (ow dist x.1) := by
    funext num x
    unfold DGraph.findOwner
    rw [(K.world.represents p hp).dist_eq]
  rw [hfo, countFor_fold _ _ fun x hx => (K.world.ow_bounds (K.sent_lt hS hp hx)).1]
  show some _ = some _
  congr 1
  apply List.map_congr_left
  intro q _
  exact Nat.zero_add _

theorem Clustered.sent_small : ((List.range (procs dist)).map fun p => (sent S dist inp g C p).length).sum < 2 ^ 31 := by
  refine Nat.lt_of_le_of_lt ?_ K.nodes
  exact natSum_le fun p hp => sent_length hS (List.mem_range.1 hp)

omit K hS in
/-- The nodes that process `q` receives. -/
def got (S : Nat → Orders) (dist : List Nat) (inp : Nat → Input) (g : Nat → DGraph) (C : Nat → Nat) (q : Nat) : List (Nat × Int) :=
  (List.range (procs dist)).flatMap fun p => (sent S dist inp g C p).filter fun x => decide (ow dist x.1 = q)

theorem Clustered.recvNodes {q : Nat} (hq : q < procs dist) : recvNodes? S (procs dist) g lab q = some (got S dist inp g C q) := by
  unfold recvNodes? got
  refine alltoallv_ok (o := fun _ x => ow dist x.1) (B := sent S dist inp g C) ?_ ?_ ?_ ?_ hq
  · intro p hp; exact K.sentNodes hp
  · intro p hp; exact K.sentCounts hS hp
  · intro p hp; exact K.sent_sorted hS hp
  · exact K.sent_small hS

theorem Clustered.got_keys {q c : Nat} (hq : q < procs dist) : c ∈ (got S dist inp g C q).map (·.1) ↔
    first dist q ≤ c ∧ c < first dist (q + 1) ∧ ∃ p, p < procs dist ∧ p ≠ q ∧ ∃ l, l < (g p).totalN ∧ C (glob g p l) = c := by
  have W := K.world
  unfold got
  rw [List.map_flatMap, List.mem_flatMap]
  constructor
  · rintro ⟨p, hp, h⟩
    have hp := List.mem_range.1 hp
    obtain ⟨x, hx, rfl⟩ := List.mem_map.1 h
    rw [List.mem_filter] at hx
    have h1 := (K.sent_keys hS hp).1 (List.mem_map_of_mem (f := (·.1)) hx.1)
    have h2 := (W.ow_eq hq (K.sent_lt hS hp hx.1)).1 (of_decide_eq_true hx.2)
    refine ⟨h2.1, h2.2, p, hp, ?_, h1.1⟩
    rintro rfl
    exact h1.2 h2
  · rintro ⟨h1, h2, p, hp, hne, l, hl, hc⟩
    have hV := W.valid p hp
    have hno : ¬ (first dist p ≤ c ∧ c < first dist (p + 1)) := fun h =>
      hne (hV.owns_unique ((hV.owns_iff' hp).2 h) ((hV.owns_iff' hq).2 ⟨h1, h2⟩))
    obtain ⟨x, hx, hxc⟩ := List.mem_map.1 ((K.sent_keys hS hp).2 ⟨⟨l, hl, hc⟩, hno⟩)
    refine ⟨p, List.mem_range.2 hp, List.mem_map.2 ⟨x, List.mem_filter.2 ⟨hx, ?_⟩, hxc⟩⟩
    exact decide_eq_true ((W.ow_eq hq (K.sent_lt hS hp hx)).2 (by rw [hxc]; exact ⟨h1, h2⟩))

/-- A cluster of process `q` has a node iff a node of `q` is in it or another process sent it. -/
theorem Clustered.used_local {q i : Nat} (hq : q < procs dist) (hi : i < localN dist q) : used C (globalN dist) (first dist q + i) = true ↔
    (∃ u, u < localN dist q ∧ C (first dist q + u) = first dist q + i) ∨ first dist q + i ∈ (got S dist inp g C q).map (·.1) := by
  have W := K.world
  have hsf := W.succ_first hq
  rw [used_iff, K.got_keys hS hq]
  constructor
  · rintro ⟨a, ha, hc⟩
    have hb := W.ow_bounds ha
    by_cases hp : ow dist a = q
    · refine .inl ⟨a - first dist q, ?_, ?_⟩
      · rw [hp] at hb; omega
      · rw [hp] at hb; rw [show first dist q + (a - first dist q) = a by omega]; exact hc
    · refine .inr ⟨by omega, by omega, ow dist a, hb.1, hp, a - first dist (ow dist a), ?_, ?_⟩
      · have := W.local_le_total hb.1
        have := W.succ_first hb.1
        omega
      · rw [W.glob_own hb.1 (by have := W.succ_first hb.1; omega), show first dist (ow dist a) + (a - first dist (ow dist a)) = a by omega]
        exact hc
  · rintro (⟨u, hu, hc⟩ | ⟨_, _, p, hp, _, l, hl, hc⟩)
    · exact ⟨_, owned_lt W hq hu, hc⟩
    · exact ⟨_, (W.glob_some hp hl).2, hc⟩

end

end Verif.Dist
