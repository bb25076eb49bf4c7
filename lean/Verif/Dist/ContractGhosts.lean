import Verif.Dist.ContractSend

/-!
# The ghost nodes of the coarse graph, for the proof of C73
-/

namespace Verif.Dist
open Verif.Math

/-! ## Creating ghost nodes -/

/-- The mapper after ghost nodes for `l` were created. -/
structure MapOk (cn : Nat) (l : List Nat) (m : Mapper) : Prop where
  keys : (m.table.map Prod.fst).Nodup
  mem : ∀ v, v ∈ m.table.map Prod.fst ↔ v ∈ l
  values : m.table.map Prod.snd = (List.range' cn m.table.length).reverse
  next : m.next = cn + m.table.length

theorem nodup_length_le {G : Nat} {l : List Nat} (h : l.Nodup) (hb : ∀ v, v ∈ l → v < G) : l.length ≤ G := by
  have := (List.subperm_of_subset h fun v hv => List.mem_range.2 (hb v hv) : l.Subperm (List.range G)).length_le
  rwa [List.length_range] at this

theorem newGhosts_ok {cn G : Nat} (hfit : cn + G < 2 ^ 32) : ∀ (l pre : List Nat) (m : Mapper), MapOk cn pre m → (∀ v, v ∈ pre ++ l → v < G) →
    MapOk cn (pre ++ l) (l.foldl (fun m v => (m.newGhostNode v).1) m)
  | [], pre, m, h, _ => by rw [List.append_nil]; exact h
  | v :: l, pre, m, h, hb => by
    have hstep : MapOk cn (pre ++ [v]) (m.newGhostNode v).1 := by
      unfold Mapper.newGhostNode
      cases hl : m.table.lookup v with
      | some x =>
        have hv : v ∈ pre := (h.mem v).1 (List.mem_map_of_mem (mem_of_lookup hl))
        refine ⟨h.keys, fun w => ?_, h.values, h.next⟩
        rw [List.mem_append, List.mem_singleton, h.mem w]
        exact ⟨.inl, fun hw => hw.elim id fun hw => hw ▸ hv⟩
      | none =>
        have hv := lookup_none.1 hl
        have hlen : m.table.length < G := by
          have h1 : (v :: m.table.map Prod.fst).length ≤ G := nodup_length_le (List.nodup_cons.2 ⟨hv, h.keys⟩) fun w hw => by
            rcases List.mem_cons.1 hw with rfl | hw
            · exact hb _ (List.mem_append_right _ List.mem_cons_self)
            · exact hb _ (List.mem_append_left _ ((h.mem w).1 hw))
          rw [List.length_cons, List.length_map] at h1
          omega
        refine ⟨?_, fun w => ?_, ?_, ?_⟩
        · exact List.nodup_cons.2 ⟨hv, h.keys⟩
        · rw [List.map_cons, List.mem_cons, h.mem w, List.mem_append, List.mem_singleton, or_comm]
        · rw [List.map_cons, h.values, h.next, List.length_cons, List.range'_concat, List.reverse_append, Nat.one_mul]
          rfl
        · show (m.next + 1) % 2 ^ 32 = cn + (m.table.length + 1)
          rw [h.next, Nat.mod_eq_of_lt (by omega)]
          omega
    have := newGhosts_ok hfit l (pre ++ [v]) _ hstep (by simpa using hb)
    simpa using this

/-- The tables after `finalize`. -/
structure GhostOk (cdist : List Nat) (cn : Nat) (table : List (Nat × Nat)) (t : Ghosts) : Prop where
  arrays : ∀ v l, (v, l) ∈ table → t.toGlobal (l - cn) = v ∧ t.owner (l - cn) = findInDistribution v cdist
  lookup : ∀ v l, t.toGhost.lookup (v + 1) = some l ↔ (v, l) ∈ table

theorem finalized_ok {cdist : List Nat} {cn G : Nat} {l : List Nat} {m : Mapper} {S : Orders} (hS : S.Ok) (h : MapOk cn l m) (hfit : cn + G < 2 ^ 32)
    (hb : ∀ v, v ∈ l → v < G) :
    subW 32 m.next cn = m.table.length ∧
      ∃ t, (S.table m.table).foldlM (finalizeEntry? cdist cn (subW 32 m.next cn)) ⟨fun _ => 0, fun _ => 0, []⟩ = some t ∧
        GhostOk cdist cn m.table t := by
  have hlen : m.table.length ≤ G := by
    have := nodup_length_le h.keys fun v hv => hb v ((h.mem v).1 hv)
    rwa [List.length_map] at this
  have hsub : subW 32 m.next cn = m.table.length := by
    rw [h.next, subW_of_le (by omega) (by omega)]
    omega
  have hp := hS.table m.table
  have hvn : (m.table.map Prod.snd).Nodup := by rw [h.values]; exact List.nodup_reverse.2 List.nodup_range'
  have hk : ((S.table m.table).map Prod.fst).Nodup := ((hp.map _).nodup_iff).2 h.keys
  obtain ⟨t, h1, h2⟩ := finalize_ok (dist := cdist) (n := cn) (ghostN := m.table.length) (by omega) (S.table m.table) []
    ⟨fun _ => 0, fun _ => 0, []⟩ ⟨fun e he => absurd he List.not_mem_nil, rfl⟩ (by
      intro e he
      have hm : e.2 ∈ m.table.map Prod.snd := List.mem_map_of_mem (hp.mem_iff.1 he)
      rw [h.values, List.mem_reverse, List.mem_range'_1] at hm
      exact hm) hk (((hp.map _).nodup_iff).2 hvn) fun e he => absurd he List.not_mem_nil
  rw [List.nil_append] at h2
  refine ⟨hsub, t, by rw [hsub]; exact h1, fun v l hv => h2.arrays (v, l) (hp.mem_iff.2 hv), fun v l => ?_⟩
  rw [h2.table]
  have hkn : (((S.table m.table).map fun e => (e.1 + 1, e.2)).reverse.map Prod.fst).Nodup := by
    rw [List.map_reverse, List.nodup_reverse, List.map_map]
    have hkk : ((S.table m.table).map (Prod.fst ∘ fun e : Nat × Nat => (e.1 + 1, e.2))) = ((S.table m.table).map Prod.fst).map (· + 1) := by
      rw [List.map_map]
      rfl
    rw [hkk]
    exact hk.map fun a b hab => Nat.succ_injective hab
  constructor
  · intro hl
    have hl := mem_of_lookup hl
    rw [List.mem_reverse, List.mem_map] at hl
    obtain ⟨e, he, heq⟩ := hl
    injection heq with h3 h4
    have h5 : e = (v, l) := Prod.ext (by omega) h4
    rw [← h5]
    exact hp.mem_iff.1 he
  · intro hl
    refine lookup_of_mem hkn ?_
    rw [List.mem_reverse, List.mem_map]
    exact ⟨(v, l), hp.mem_iff.2 hl, rfl⟩

theorem flatten_filter {α : Type} (o : α → Bool) : ∀ l : List α, (l.map fun v => if o v = true then [] else [v]).flatten = l.filter fun v => !o v
  | [] => rfl
  | v :: l => by
    rw [List.map_cons, List.flatten_cons, flatten_filter o l]
    cases h : o v
    · rw [List.filter_cons_of_pos (by rw [h]; rfl)]; rfl
    · rw [List.filter_cons_of_neg (by rw [h]; exact Bool.false_ne_true)]; rfl

/-! ## The ghost nodes that are created -/

variable {C : Nat → Nat} {dist : List Nat} {inp : Nat → Input} {g : Nat → DGraph} {lab : Nat → List Nat} {S : Nat → Orders}

/-- The edges of the node `u` of process `q`, with coarse nodes as targets. -/
def locOf (dist : List Nat) (inp : Nat → Input) (C : Nat → Nat) (q u : Nat) : List (Nat × Int) :=
  ((inp q).neighbours u).map fun y => (cnode dist C (C y.1), y.2)

/-- Process `q` owns the coarse node `x`. -/
def owned (dist : List Nat) (C : Nat → Nat) (q x : Nat) : Bool := decide (first (cdistOf dist C) q ≤ x ∧ x < first (cdistOf dist C) (q + 1))

theorem owned_iff {q x : Nat} : owned dist C q x = true ↔ first (cdistOf dist C) q ≤ x ∧ x < first (cdistOf dist C) (q + 1) := by
  unfold owned
  exact decide_eq_true_iff

theorem isOwnedC_ok {q : Nat} (hq : q < procs dist) (x : Nat) : isOwnedC? q (cdistOf dist C) x = some (owned dist C q x) := by
  unfold isOwnedC? owned
  rw [cdist_get (by omega), cdist_get (by omega), cdist_first (by omega), cdist_first (by omega)]
  rfl

/-- The coarse nodes for which process `q` creates ghost nodes. -/
def ghostTargets (S : Nat → Orders) (dist : List Nat) (inp : Nat → Input) (C : Nat → Nat) (q : Nat) : List Nat :=
  ((List.range (localN dist q)).flatMap fun u => if owned dist C q (cnode dist C (C (first dist q + u))) = true then
    ((locOf dist inp C q u).map (·.1)).filter fun v => !owned dist C q v else []) ++
  ((inE S dist inp C q).map (·.2.1)).filter fun v => !owned dist C q v

variable (K : Clustered dist inp g lab C)
include K

theorem Clustered.coarse_neighbours {q u : Nat} (hq : q < procs dist) (hu : u < localN dist q) : ∃ l, (g q).adjacent? u = some l ∧
    l.mapM (fun x => (gcnOf dist g C q)[x.1]?.map fun v => (v, x.2)) = some (locOf dist inp C q u) := by
  have W := K.world
  obtain ⟨l, h1, h2⟩ := (W.represents q hq).neighbours u hu
  refine ⟨l, h1, mapM_comp h2 fun x y _ hxy => ?_⟩
  obtain ⟨v, hv, rfl⟩ := Option.map_eq_some_iff.1 hxy
  have hx := lt_total hv
  rw [gcn_get hx]
  unfold glob
  rw [hv]
  rfl

variable (hS : ∀ p, p < procs dist → (S p).Ok)
include hS

theorem Clustered.coarseGhosts {q : Nat} (hq : q < procs dist) : coarseGhosts? (S q) (g q) (cdistOf dist C) (gcnOf dist g C q) (inE S dist inp C q) (cnum dist C q) =
    some (((S q).targets (ghostTargets S dist inp C q)).foldl (fun m v => (m.newGhostNode v).1) ⟨[], cnum dist C q⟩) := by
  have W := K.world
  have R := W.represents q hq
  unfold coarseGhosts?
  have h1 : (List.range (g q).n).mapM (nodeTargets? (g q) (cdistOf dist C) (gcnOf dist g C q)) =
      some ((List.range (g q).n).map fun u => if owned dist C q (cnode dist C (C (first dist q + u))) = true then
        ((locOf dist inp C q u).map (·.1)).filter fun v => !owned dist C q v else []) := by
    refine mapM_some fun u hu => ?_
    rw [R.n_eq] at hu
    have hu := List.mem_range.1 hu
    obtain ⟨l, h2, h3⟩ := K.coarse_neighbours hq hu
    unfold nodeTargets?
    rw [gcn_get (Nat.lt_of_lt_of_le hu (W.local_le_total hq)), Option.bind_some, R.rank_eq, isOwnedC_ok hq, Option.bind_some, W.glob_own hq hu]
    by_cases ho : owned dist C q (cnode dist C (C (first dist q + u))) = true
    · rw [if_pos ho, if_pos ho, h2, Option.bind_some]
      have h4 : l.mapM (fun y => (gcnOf dist g C q)[y.1]?.bind fun v => (isOwnedC? q (cdistOf dist C) v).map fun o => if o = true then [] else [v]) =
          some ((locOf dist inp C q u).map fun y => if owned dist C q y.1 = true then [] else [y.1]) := by
        refine mapM_comp h3 fun x y _ hxy => ?_
        obtain ⟨v, hv, rfl⟩ := Option.map_eq_some_iff.1 hxy
        rw [hv, Option.bind_some, isOwnedC_ok hq]
        rfl
      rw [h4, Option.map_some, ← flatten_filter (owned dist C q), List.map_map]
      rfl
    · rw [if_neg ho, if_neg ho]
  have h5 : edgeTargets? q (cdistOf dist C) (inE S dist inp C q) = some (((inE S dist inp C q).map (·.2.1)).filter fun v => !owned dist C q v) := by
    unfold edgeTargets?
    rw [mapM_some (g := fun e : GEdge => if owned dist C q e.2.1 = true then [] else [e.2.1])]
    · rw [Option.map_some, ← flatten_filter (owned dist C q), List.map_map]
      rfl
    · intro e _
      rw [isOwnedC_ok hq]
      rfl
  rw [h1, Option.bind_some, R.rank_eq, h5, Option.map_some, R.n_eq]
  rfl

/-- The targets of edges that process `q` handles. -/
theorem Clustered.ghostTargets_mem {q v : Nat} : v ∈ ghostTargets S dist inp C q ↔ owned dist C q v = false ∧
    ((∃ u, u < localN dist q ∧ owned dist C q (cnode dist C (C (first dist q + u))) = true ∧ v ∈ (locOf dist inp C q u).map (·.1)) ∨
      ∃ e, e ∈ inE S dist inp C q ∧ e.2.1 = v) := by
  unfold ghostTargets
  rw [List.mem_append, List.mem_flatMap, List.mem_filter, List.mem_map]
  constructor
  · rintro (⟨u, hu, h⟩ | ⟨⟨e, he, rfl⟩, h⟩)
    · by_cases ho : owned dist C q (cnode dist C (C (first dist q + u))) = true
      · rw [if_pos ho, List.mem_filter] at h
        exact ⟨by simpa using h.2, .inl ⟨u, List.mem_range.1 hu, ho, h.1⟩⟩
      · rw [if_neg ho] at h; exact absurd h List.not_mem_nil
    · exact ⟨by simpa using h, .inr ⟨e, he, rfl⟩⟩
  · rintro ⟨hv, ⟨u, hu, ho, h⟩ | ⟨e, he, rfl⟩⟩
    · refine .inl ⟨u, List.mem_range.2 hu, ?_⟩
      rw [if_pos ho, List.mem_filter]
      exact ⟨h, by simpa using hv⟩
    · exact .inr ⟨⟨e, he, rfl⟩, by simpa using hv⟩

omit hS in
theorem Clustered.loc_lt {q u : Nat} (hq : q < procs dist) (hu : u < localN dist q) {y : Nat × Int} (hy : y ∈ locOf dist inp C q u) :
    y.1 < globalN (cdistOf dist C) := by
  obtain ⟨x, hx, rfl⟩ := List.mem_map.1 hy
  obtain ⟨l, hl, h⟩ := K.world.neighbour_local hq hu hx
  show cnode dist C (C x.1) < _
  rw [← h]
  exact K.cnode_lt (K.world.glob_some hq hl).2

theorem Clustered.ghostTargets_lt {q v : Nat} (hq : q < procs dist) (hv : v ∈ ghostTargets S dist inp C q) : v < globalN (cdistOf dist C) := by
  obtain ⟨_, ⟨u, hu, _, h⟩ | ⟨e, he, rfl⟩⟩ := (K.ghostTargets_mem hS).1 hv
  · obtain ⟨y, hy, rfl⟩ := List.mem_map.1 h
    exact K.loc_lt hq hu hy
  · exact (K.in_mem hS hq he).2

omit hS in
theorem Clustered.cglobal_small : globalN (cdistOf dist C) < 2 ^ 31 := by
  rw [cdist_global]
  exact Nat.lt_of_le_of_lt (num_le _) K.global_small

omit hS in
theorem Clustered.cnum_small {q : Nat} (hq : q < procs dist) : cnum dist C q < 2 ^ 31 := Nat.lt_of_le_of_lt K.cnum_le (K.local_small hq)

/-- The mapper of the coarse graph of process `q`, and its tables. -/
theorem Clustered.ghosts {q : Nat} (hq : q < procs dist) : ∃ m t,
    coarseGhosts? (S q) (g q) (cdistOf dist C) (gcnOf dist g C q) (inE S dist inp C q) (cnum dist C q) = some m ∧
    MapOk (cnum dist C q) (ghostTargets S dist inp C q) m ∧ subW 32 m.next (cnum dist C q) = m.table.length ∧
    ((S q).table m.table).foldlM (finalizeEntry? (cdistOf dist C) (cnum dist C q) (subW 32 m.next (cnum dist C q))) ⟨fun _ => 0, fun _ => 0, []⟩ = some t ∧
    GhostOk (cdistOf dist C) (cnum dist C q) m.table t := by
  have hG := K.cglobal_small
  have hc := K.cnum_small hq
  have hp := (hS q hq).targets (ghostTargets S dist inp C q)
  have hfit : cnum dist C q + globalN (cdistOf dist C) < 2 ^ 32 := by omega
  have hb : ∀ v, v ∈ ghostTargets S dist inp C q → v < globalN (cdistOf dist C) := fun v hv => K.ghostTargets_lt hS hq hv
  have h1 := newGhosts_ok hfit ((S q).targets (ghostTargets S dist inp C q)) [] ⟨[], cnum dist C q⟩
    ⟨List.nodup_nil, fun _ => Iff.rfl, rfl, rfl⟩ fun v hv => hb v (hp.mem_iff.1 (by simpa using hv))
  rw [List.nil_append] at h1
  have h2 : MapOk (cnum dist C q) (ghostTargets S dist inp C q)
      (((S q).targets (ghostTargets S dist inp C q)).foldl (fun m v => (m.newGhostNode v).1) ⟨[], cnum dist C q⟩) :=
    ⟨h1.keys, fun v => by rw [h1.mem v]; exact hp.mem_iff, h1.values, h1.next⟩
  obtain ⟨h3, t, h4, h5⟩ := finalized_ok (cdist := cdistOf dist C) (hS q hq) h2 hfit hb
  exact ⟨_, t, K.coarseGhosts hS hq, h2, h3, h4, h5⟩

end Verif.Dist
