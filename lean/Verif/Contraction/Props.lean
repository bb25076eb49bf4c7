import Verif.Contraction.Algorithms
import Verif.Contraction.Collect
import Verif.Contraction.Unbuffered

/-!
# C28: contraction preserves weights and cuts
-/

namespace Verif.Contraction

open Finset
open Verif.Maps

/-- What a user of `contract_clustering` relies on: `h` with `mapping` is the contraction of `g` (see
`Contracted`), the coarse nodes are the clusters, and weights and cuts are those of the fine graph. -/
structure Faithful (g : Graph) (clustering mapping : Nat → Nat) (h : Graph) : Prop where
  contracted : Contracted g mapping h
  cluster : ∀ u v, u < g.n → v < g.n → (mapping u = mapping v ↔ clustering u = clustering v)
  total : ∑ c ∈ range h.n, h.w c = ∑ u ∈ range g.n, g.w u
  block : ∀ (part : Nat → Nat) (b : Nat), blockWeight h part b = blockWeight g (fun u => part (mapping u)) b
  symm : g.Symm → h.Symm
  cut : g.Symm → ∀ part : Nat → Nat, h.cut part = g.cut fun u => part (mapping u)

/-- Schedules of the preprocessing in which every loop runs over its whole range. -/
structure Prep.Ok (p : Prep) (n : Nat) (clustering : Nat → Nat) : Prop where
  map : p.map.Ok n
  buckets : p.buckets.Ok n (p.cn n clustering)

/-- A graph and a clustering the contraction is called with. -/
structure Input (g : Graph) (clustering : Nat → Nat) : Prop where
  wf : g.WF
  nonempty : 0 < g.n
  labels : ∀ u, u < g.n → clustering u < g.n

/-- No cluster has 2^32 or more fine edges. -/
def SmallClusters (g : Graph) (clustering : Nat → Nat) : Prop :=
  ∀ l, ((((List.range g.n).filter (clustering · = l)).map fun u => (g.adj u).length).sum) < 2 ^ 32

def PositiveEdges (g : Graph) : Prop := ∀ u, u < g.n → ∀ e ∈ g.adj u, 0 < e.2

/-! ## Proofs -/

theorem faithful_of {g h : Graph} {clustering mapping : Nat → Nat} (hg : g.WF) (hc : Contracted g mapping h)
    (hcl : ∀ u v, u < g.n → v < g.n → (mapping u = mapping v ↔ clustering u = clustering v)) :
    Faithful g clustering mapping h :=
  ⟨hc, hcl, hc.total, hc.block, hc.symm hg, fun hs part => (hc.cut hg hs part).symm⟩

section
variable {g : Graph} {p : Prep} {clustering : Nat → Nat} (hi : Input g clustering) (hp : p.Ok g.n clustering)
include hi hp

theorem prep_pre : Pre g (p.cn g.n clustering) (p.mapping g.n clustering) (p.bucket g.n clustering) := by
  obtain ⟨h1, h2, h3, h4⟩ := C29_mapping g.n hi.nonempty clustering p.leader hi.labels p.map hp.map
  obtain ⟨_, _, _, h5⟩ := C29_buckets g.n (p.cn g.n clustering) (p.mapping g.n clustering) h1 p.buckets hp.buckets
    p.index p.bucketMem p.slots
  exact ⟨hi.wf, h1, h2, h5⟩

theorem prep_cluster : ∀ u v, u < g.n → v < g.n →
    (p.mapping g.n clustering u = p.mapping g.n clustering v ↔ clustering u = clustering v) :=
  (C29_mapping g.n hi.nonempty clustering p.leader hi.labels p.map hp.map).2.2.1

theorem fineDegree_eq (hs : SmallClusters g clustering) {c : Nat} (hc : c < p.cn g.n clustering) :
    fineDegree g (p.bucket g.n clustering) c =
      ((p.bucket g.n clustering c).map fun u => (g.adj u).length).sum := by
  apply Nat.mod_eq_of_lt
  have hpre := prep_pre hi hp
  obtain ⟨u0, hu0, hm0⟩ := hpre.onto c hc
  have hb := hpre.bucket c hc
  have e : (List.range g.n).filter (p.mapping g.n clustering · = c) =
      (List.range g.n).filter (clustering · = clustering u0) := by
    apply List.filter_congr
    intro v hv
    have := prep_cluster hi hp v u0 (List.mem_range.1 hv) hu0
    rw [hm0] at this
    simp only [decide_eq_decide]
    exact this
  rw [(hb.map _).sum_eq, e]
  exact hs _

end

theorem inputs_length (g : Graph) (mapping : Nat → Nat) (c : Nat) : ∀ bucket : List Nat,
    (inputs g mapping bucket c).length ≤ (bucket.map fun u => (g.adj u).length).sum
  | [] => by simp [inputs]
  | u :: bucket => by
    have := inputs_length g mapping c bucket
    have e : inputs g mapping (u :: bucket) c = ((g.adj u).filterMap fun e =>
        if c ≠ mapping e.1 then some (mapping e.1, e.2) else none) ++ inputs g mapping bucket c := rfl
    rw [e, List.length_append, List.map_cons, List.sum_cons]
    have := List.length_filterMap_le (fun e : Nat × Int =>
        if c ≠ mapping e.1 then some (mapping e.1, e.2) else none) (g.adj u)
    omega

theorem rows_some {cn : Nat} {f : Nat → Option (List (Nat × Int))} {P : Nat → List (Nat × Int) → Prop}
    (h : ∀ c, c < cn → ∃ out, f c = some out ∧ P c out) :
    ∃ col, rows? cn f = some col ∧ ∀ c, c < cn → P c (col c) := by
  have hg : ∀ c ∈ List.range cn, f c = some ((f c).getD []) := by
    intro c hc
    obtain ⟨out, h1, _⟩ := h c (List.mem_range.1 hc)
    rw [h1]; rfl
  refine ⟨_, by rw [rows?, mapM_some hg]; rfl, fun c hc => ?_⟩
  obtain ⟨out, h1, h2⟩ := h c hc
  have : ((List.range cn).map fun c => (f c).getD []).getD c [] = out := by
    rw [List.getD_eq_getElem?_getD, List.getElem?_map, List.getElem?_range hc]
    simp [h1]
  simp only [this]
  exact h2

/-- A row collected with any valid degree bounds. -/
theorem row_collects {cn : Nat} {ins : Nat → List (Nat × Int)} {uses : List (Nat × Nat)} {up c : Nat}
    (hu : ∀ x ∈ uses, Keys x.1 (ins x.2) ∧ ∀ e ∈ ins x.2, e.1 < cn ∧ 0 < e.2) (hup : Keys up (ins c))
    (hin : ∀ e ∈ ins c, e.1 < cn ∧ 0 < e.2) : ∃ out, row? cn ins uses up c = some out ∧ Collects (ins c) out := by
  apply ratingMap_collects
  · intro l hl
    rcases List.mem_append.1 hl with h | h
    · obtain ⟨x, hx, rfl⟩ := List.mem_map.1 h
      obtain ⟨hx, hk⟩ := List.mem_filter.1 hx
      exact ⟨x.1, (hu x hx).1, by simpa using hk⟩
    · rw [List.mem_singleton.1 h]
      exact ⟨up, hup, rfl⟩
  · intro l hl
    rcases List.mem_append.1 hl with h | h
    · obtain ⟨x, hx, rfl⟩ := List.mem_map.1 h
      exact (hu x (List.mem_filter.1 hx).1).2
    · rw [List.mem_singleton.1 h]
      exact hin

section
variable {g : Graph} {cn : Nat} {mapping : Nat → Nat} {bucket : Nat → List Nat} (hpre : Pre g cn mapping bucket)
include hpre

theorem ins_keys {c : Nat} (hc : c < cn) : ∀ e ∈ inputs g mapping (bucket c) c, e.1 < cn := by
  intro e he
  obtain ⟨u, hu, f, hf, _, rfl⟩ := mem_inputs.1 he
  exact hpre.maps _ (hpre.wf u ((hpre.mem_bucket hc).1 hu).1 f hf)

theorem ins_pos (hpos : PositiveEdges g) {c : Nat} (hc : c < cn) : ∀ e ∈ inputs g mapping (bucket c) c, 0 < e.2 := by
  intro e he
  obtain ⟨u, hu, f, hf, _, rfl⟩ := mem_inputs.1 he
  exact hpos u ((hpre.mem_bucket hc).1 hu).1 f hf

theorem contracted_of_done {col : Nat → List (Nat × Int)}
    (hcol : ∀ c, c < cn → Collects (inputs g mapping (bucket c) c) (col c)) {m : Mem}
    (hd : Done col (fun c => bucketWeight g (bucket c)) cn m) : Contracted g mapping (coarse cn m) :=
  contracted_of_rows hpre hcol (fun c => c) (fun _ h => h) (fun _ _ _ _ h => h) (fun d h => ⟨d, h, rfl⟩) rfl
    (fun c hc => (coarse_of_done hd hc).1) fun c hc => by
      show (coarse cn m).adj c = _
      rw [(coarse_of_done hd hc).2]; simp

end

theorem keys_bound {g : Graph} {mapping : Nat → Nat} {bucket : List Nat} {c up : Nat}
    (h : up = (bucket.map fun u => (g.adj u).length).sum) : Keys up (inputs g mapping bucket c) :=
  (keys_length _).mono (by rw [h]; exact inputs_length g mapping c bucket) fun _ h => h

/-! ## The buffered algorithms -/

/-- C28, `contract_clustering_buffered` and `contract_clustering_buffered_legacy`: for every graph with positive edge
weights, every clustering, every splitting into chunks and every schedule, the algorithm does not run into undefined
behaviour and produces a faithful coarse graph.  Missing for the full statement: zero edge weights
(`C28_zero_weight_counterexample`), clusters with 2^32 or more fine edges (possible with 64-bit edge IDs only). -/
theorem C28_buffered_partial (g : Graph) (clustering : Nat → Nat) (hi : Input g clustering) (hpos : PositiveEdges g)
    (hsmall : SmallClusters g clustering) (p : Prep) (hp : p.Ok g.n clustering) (limit : Option Nat)
    (earlier : Nat → List Nat) (hearlier : ∀ c, ∀ d ∈ earlier c, d < p.cn g.n clustering)
    (K : Nat) (hK : 0 < K) (sched : Nat × Nat → ChunkSched)
    (hsched : ∀ r ∈ chunks (p.cn g.n clustering) limit (fineDegree g (p.bucket g.n clustering)),
      (sched r).Ok r.1 r.2)
    (m : Mem) (hm : m (.node 0) = 0) :
    ∃ m', buffered? K g p clustering limit earlier sched m = some m' ∧
      Faithful g clustering (p.mapping g.n clustering) (coarse (p.cn g.n clustering) m') := by
  have hpre := prep_pre hi hp
  obtain ⟨col, hrows, hcol⟩ := rows_some (cn := p.cn g.n clustering)
    (f := fun c => row? (p.cn g.n clustering)
      (fun c => inputs g (p.mapping g.n clustering) (p.bucket g.n clustering c) c)
      ((earlier c).map fun d => (fineDegree g (p.bucket g.n clustering) d, d))
      (fineDegree g (p.bucket g.n clustering) c) c)
    (P := fun c out => Collects (inputs g (p.mapping g.n clustering) (p.bucket g.n clustering c) c) out)
    fun c hc => row_collects (ins := fun c => inputs g (p.mapping g.n clustering) (p.bucket g.n clustering c) c)
      (fun x hx => by
        obtain ⟨d, hd, rfl⟩ := List.mem_map.1 hx
        have hd' := hearlier c d hd
        exact ⟨keys_bound (fineDegree_eq hi hp hsmall hd'),
          fun e he => ⟨ins_keys hpre hd' e he, ins_pos hpre hpos hd' e he⟩⟩)
      (keys_bound (fineDegree_eq hi hp hsmall hc))
      fun e he => ⟨ins_keys hpre hc e he, ins_pos hpre hpos hc e he⟩
  obtain ⟨m', e1, d1⟩ := loop_ok hK (col := col) (wgt := fun c => bucketWeight g (p.bucket g.n clustering c))
    (cn := p.cn g.n clustering)
    ((chunks (p.cn g.n clustering) limit (fineDegree g (p.bucket g.n clustering))).map fun r => (r, sched r)) 0 m
    (by rw [List.map_map, show (Prod.fst ∘ fun r => (r, sched r)) = id from rfl, List.map_id]; exact chunks_ok _ _ _)
    (fun r hr => by
      obtain ⟨x, hx, rfl⟩ := List.mem_map.1 hr
      exact hsched x hx)
    (done_zero hm)
  refine ⟨m', ?_, faithful_of hi.wf (contracted_of_done hpre hcol d1) (prep_cluster hi hp)⟩
  unfold buffered?
  simp only [hrows, Option.bind_some]
  exact e1

/-! ## The naive unbuffered algorithm -/

/-- C28, `contract_clustering_unbuffered_naive`.  Same restrictions as above. -/
theorem C28_naive_partial (g : Graph) (clustering : Nat → Nat) (hi : Input g clustering) (hpos : PositiveEdges g)
    (hsmall : SmallClusters g clustering) (p : Prep) (hp : p.Ok g.n clustering)
    (earlier1 first earlier2 : Nat → List Nat)
    (hearlier : ∀ c, ∀ d ∈ earlier1 c ++ (first c ++ earlier2 c), d < p.cn g.n clustering)
    (order1 order2 : List Write → List Write) (h1 : Reorders order1) (h2 : Reorders order2)
    (m : Mem) (hm : m (.node 0) = 0) :
    ∃ m', naive? g p clustering earlier1 first earlier2 order1 order2 m = some m' ∧
      Faithful g clustering (p.mapping g.n clustering) (coarse (p.cn g.n clustering) m') := by
  have hpre := prep_pre hi hp
  have hin : ∀ c, c < p.cn g.n clustering →
      ∀ e ∈ inputs g (p.mapping g.n clustering) (p.bucket g.n clustering c) c,
        e.1 < p.cn g.n clustering ∧ 0 < e.2 :=
    fun c hc e he => ⟨ins_keys hpre hc e he, ins_pos hpre hpos hc e he⟩
  have hkb : ∀ c, c < p.cn g.n clustering → Keys (fineDegree g (p.bucket g.n clustering) c)
      (inputs g (p.mapping g.n clustering) (p.bucket g.n clustering c) c) :=
    fun c hc => keys_bound (fineDegree_eq hi hp hsmall hc)
  obtain ⟨col1, hrows1, hcol1⟩ := rows_some (cn := p.cn g.n clustering)
    (f := fun c => row? (p.cn g.n clustering)
      (fun c => inputs g (p.mapping g.n clustering) (p.bucket g.n clustering c) c)
      ((earlier1 c).map fun d => (fineDegree g (p.bucket g.n clustering) d, d))
      (fineDegree g (p.bucket g.n clustering) c) c)
    (P := fun c out => Collects (inputs g (p.mapping g.n clustering) (p.bucket g.n clustering c) c) out)
    fun c hc => row_collects (ins := fun c => inputs g (p.mapping g.n clustering) (p.bucket g.n clustering c) c)
      (fun x hx => by
        obtain ⟨d, hd, rfl⟩ := List.mem_map.1 hx
        have hd' := hearlier c d (List.mem_append_left _ hd)
        exact ⟨hkb d hd', hin d hd'⟩) (hkb c hc) (hin c hc)
  obtain ⟨col2, hrows2, hcol2⟩ := rows_some (cn := p.cn g.n clustering)
    (f := fun c => row? (p.cn g.n clustering)
      (fun c => inputs g (p.mapping g.n clustering) (p.bucket g.n clustering c) c)
      (((first c).map fun d => (fineDegree g (p.bucket g.n clustering) d, d)) ++
        (earlier2 c).map fun d => ((col1 d).length, d))
      (col1 c).length c)
    (P := fun c out => Collects (inputs g (p.mapping g.n clustering) (p.bucket g.n clustering c) c) out)
    fun c hc => row_collects (ins := fun c => inputs g (p.mapping g.n clustering) (p.bucket g.n clustering c) c)
      (fun x hx => by
        rcases List.mem_append.1 hx with hx | hx
        · obtain ⟨d, hd, rfl⟩ := List.mem_map.1 hx
          have hd' := hearlier c d (List.mem_append_right _ (List.mem_append_left _ hd))
          exact ⟨hkb d hd', hin d hd'⟩
        · obtain ⟨d, hd, rfl⟩ := List.mem_map.1 hx
          have hd' := hearlier c d (List.mem_append_right _ (List.mem_append_right _ hd))
          exact ⟨collects_keys (hcol1 d hd'), hin d hd'⟩) (collects_keys (hcol1 c hc)) (hin c hc)
  refine ⟨_, ?_, faithful_of hi.wf (contracted_of_done hpre hcol2
    (naive_ok (fun c hc => ((hcol1 c hc).perm (hcol2 c hc)).length_eq) h1 h2 hm)) (prep_cluster hi hp)⟩
  unfold naive?
  simp only [hrows1, hrows2, Option.bind_some, Option.map_some]

/-! ## The unbuffered algorithm -/

/-- What the events of the aggregation satisfy. -/
def Collector.Ok (g : Graph) (p : Prep) (clustering : Nat → Nat) : Collector → Prop
  | .growing earlier => ∀ c, (earlier c).length + 1 < 2 ^ 32
  | .single earlier => PositiveEdges g ∧ SmallClusters g clustering ∧ ∀ c, ∀ d ∈ earlier c, d < p.cn g.n clustering
  | .twoPhase earlier segments order threads => PositiveEdges g ∧
    (∀ c, ∀ l ∈ earlier c, Keys (65536 / 3) l) ∧
    (∀ c, c < p.cn g.n clustering → ∀ s ∈ segments c,
      Keys (65536 / 3) s.ins ∧ ∀ l ∈ s.earlier, Keys (65536 / 3) l) ∧
    (∀ c, c < p.cn g.n clustering → ((segments c).map Segment.ins).flatten.Perm
      (inputs g (p.mapping g.n clustering) (p.bucket g.n clustering c) c)) ∧
    (∀ c l, (order c l).Perm l) ∧ (∀ c, (threads c).Nodup) ∧ ∀ c, ∀ s ∈ segments c, s.thread ∈ threads c

theorem second_collects {ins : List (Nat × Int)} {segments : List Segment}
    {order : List (Nat × Nat × Int) → List (Nat × Nat × Int)} {threads : List Nat}
    (hk : ∀ s ∈ segments, Keys (65536 / 3) s.ins ∧ ∀ l ∈ s.earlier, Keys (65536 / 3) l)
    (hperm : (segments.map Segment.ins).flatten.Perm ins) (ho : ∀ l, (order l).Perm l) (hn : threads.Nodup)
    (ht : ∀ s ∈ segments, s.thread ∈ threads) (hpos : ∀ e ∈ ins, 0 < e.2) :
    ∃ out, second? segments order threads = some out ∧ Collects ins out := by
  let out := fun s : Segment =>
    ((run (FixedMap.op 0) (FixedMap.new 65536) (session s.earlier s.ins)).map FixedMap.entries).getD []
  have hout : ∀ s ∈ segments, (run (FixedMap.op 0) (FixedMap.new 65536) (session s.earlier s.ins)).map
      FixedMap.entries = some (out s) ∧ Collects s.ins (out s) := by
    intro s hs
    obtain ⟨t, h1, h2, _⟩ := fixed_collects (M := 65536) (by omega) (earlier := s.earlier) (ins := s.ins) (by
      intro l hl
      rcases List.mem_append.1 hl with h | h
      · exact ((hk s hs).2 l h).mono (by omega) fun _ h => h
      · rw [List.mem_singleton.1 h]; exact (hk s hs).1.mono (by omega) fun _ h => h)
    have e : out s = t.entries := by simp only [out, h1, Option.map_some, Option.getD_some]
    exact ⟨by rw [h1, e]; rfl, by rw [e]; exact h2⟩
  refine ⟨_, by
    rw [second?, mapM_some (g := fun s => (out s).map fun e => (s.thread, e))]
    · rfl
    · intro s hs
      have := (hout s hs).1
      cases h : run (FixedMap.op 0) (FixedMap.new 65536) (session s.earlier s.ins) with
      | none => rw [h] at this; simp at this
      | some t =>
        rw [h] at this
        simp only [Option.map_some, Option.some.injEq] at this ⊢
        rw [this], ?_⟩
  refine secondPhase_collects (segs := segments.map fun s => (s.ins, out s)) hn ?_ ?_ ?_ ?_ hpos
  · rw [List.map_map]; exact hperm
  · intro s hs
    obtain ⟨x, hx, rfl⟩ := List.mem_map.1 hs
    exact (hout x hx).2
  · refine ((ho _).map _).trans ?_
    rw [List.map_flatten, List.map_map, List.map_map]
    have : (List.map Prod.snd ∘ fun s : Segment => (out s).map fun e => (s.thread, e)) =
        Prod.snd ∘ fun s : Segment => (s.ins, out s) := by
      funext s
      simp [Function.comp]
    rw [this]
  · intro x hx
    have hx' := (ho _).mem_iff.1 hx
    obtain ⟨l, hl, hxl⟩ := List.mem_flatten.1 hx'
    obtain ⟨s, hs, rfl⟩ := List.mem_map.1 hl
    obtain ⟨e, _, rfl⟩ := List.mem_map.1 hxl
    exact ht s hs

/-- All three aggregation algorithms list every row completely. -/
theorem collector_rows {g : Graph} {clustering : Nat → Nat} (hi : Input g clustering) {p : Prep}
    (hp : p.Ok g.n clustering) {k : Collector} (hk : k.Ok g p clustering) {c : Nat} (hc : c < p.cn g.n clustering) :
    ∃ out, k.row? (p.cn g.n clustering) (fun c => inputs g (p.mapping g.n clustering) (p.bucket g.n clustering c) c)
      (fineDegree g (p.bucket g.n clustering)) c = some out ∧
      Collects (inputs g (p.mapping g.n clustering) (p.bucket g.n clustering c) c) out := by
  have hpre := prep_pre hi hp
  cases k with
  | growing earlier => exact growingMap_collects (by rw [List.length_map]; exact hk c)
  | single earlier =>
    obtain ⟨hpos, hsmall, hearlier⟩ := hk
    exact row_collects (ins := fun c => inputs g (p.mapping g.n clustering) (p.bucket g.n clustering c) c)
      (fun x hx => by
        obtain ⟨d, hd, rfl⟩ := List.mem_map.1 hx
        have hd' := hearlier c d hd
        exact ⟨keys_bound (fineDegree_eq hi hp hsmall hd'),
          fun e he => ⟨ins_keys hpre hd' e he, ins_pos hpre hpos hd' e he⟩⟩)
      (keys_bound (fineDegree_eq hi hp hsmall hc))
      fun e he => ⟨ins_keys hpre hc e he, ins_pos hpre hpos hc e he⟩
  | twoPhase earlier segments order threads =>
    obtain ⟨hpos, h1, h2, h3, h4, h5, h6⟩ := hk
    have hk1 : ∀ l ∈ earlier c, Keys (65536 - 1) l := fun l hl => (h1 c l hl).mono (by omega) fun _ h => h
    obtain ⟨s, hs, _, _⟩ := fixed_collects (M := 65536) (by omega) (earlier := earlier c) (ins := []) (by
      intro l hl
      rcases List.mem_append.1 hl with h | h
      · exact hk1 l h
      · rw [List.mem_singleton.1 h]; exact ⟨[], by simp, fun _ h => absurd h List.not_mem_nil⟩)
    obtain ⟨r, hr, hrc⟩ := firstPhase_collects (M := 65536) (thr := 65536 / 3) (by omega) (by omega) hk1
      (ins := inputs g (p.mapping g.n clustering) (p.bucket g.n clustering c) c) hs
    simp only [Collector.row?, hs, Option.bind_some, hr]
    cases r with
    | some out => exact ⟨out, rfl, hrc out rfl⟩
    | none =>
      exact second_collects (h2 c hc) (h3 c hc) (h4 c) (h5 c) (h6 c) (ins_pos hpre hpos hc)

theorem unbuffered_faithful {g : Graph} {clustering : Nat → Nat} (hi : Input g clustering) {p : Prep}
    (hp : p.Ok g.n clustering) {k : Collector} (hk : k.Ok g p clustering) {ev : UEvents}
    (hev : ev.Ok (p.cn g.n clustering)) {order1 order2 : List Write → List Write} (h1 : Reorders order1)
    (h2 : Reorders order2) (m : Mem) :
    ∃ m' mapping', contractUnbuffered? g p clustering k ev.list order1 order2 m = some (m', mapping') ∧
      Faithful g clustering mapping' (coarse (p.cn g.n clustering) m') := by
  have hpre := prep_pre hi hp
  obtain ⟨col, hrows, hcol⟩ := rows_some (cn := p.cn g.n clustering)
    (P := fun c out => Collects (inputs g (p.mapping g.n clustering) (p.bucket g.n clustering c) c) out)
    fun c hc => collector_rows hi hp hk hc
  have hkeys : ∀ c, c < p.cn g.n clustering → ∀ e ∈ col c, e.1 < p.cn g.n clustering := by
    rintro c hc ⟨d, w⟩ he
    obtain ⟨x, hx, hxd⟩ := List.mem_map.1 (((hcol c hc).2 d w).1 he).1
    have := ins_keys hpre hc x hx
    rw [hxd] at this
    exact this
  obtain ⟨m', mapping', σ, e1, e2, e3, e4, e5, e6⟩ := unbuffered_ok 4096 32768 (col := col)
    (wgt := fun c => bucketWeight g (p.bucket g.n clustering c)) hpre.maps hkeys hev h1 h2 m
  refine ⟨m', mapping', ?_, faithful_of hi.wf ?_ ?_⟩
  · unfold contractUnbuffered?
    simp only [hrows, Option.bind_some]
    exact e1
  · have hcon := contracted_of_rows hpre hcol σ e3 e4 e5 (h := coarse (p.cn g.n clustering) m') rfl
      (fun c hc => (e6 c hc).1) fun c hc => (e6 c hc).2
    refine ⟨fun u hu => by rw [e2 u hu]; exact hcon.maps u hu, fun c hc => ?_, fun c hc => ?_, hcon.wf, hcon.loopless,
      hcon.simple, fun c d hc hd hcd => ?_, fun c d hc hd hcd => ?_⟩
    · obtain ⟨u, hu, h⟩ := hcon.onto c hc
      exact ⟨u, hu, by rw [e2 u hu]; exact h⟩
    · rw [hcon.weight c hc]
      exact Finset.sum_congr rfl fun u hu => by rw [e2 u (mem_range.1 hu)]
    · rw [hcon.adjacent c d hc hd hcd]
      constructor
      · rintro ⟨u, hu, h, e, he, h'⟩
        exact ⟨u, hu, by rw [e2 u hu]; exact h, e, he, by rw [e2 _ (hi.wf u hu e he)]; exact h'⟩
      · rintro ⟨u, hu, h, e, he, h'⟩
        exact ⟨u, hu, by rw [e2 u hu] at h; exact h, e, he, by rw [e2 _ (hi.wf u hu e he)] at h'; exact h'⟩
    · rw [hcon.edge c d hc hd hcd]
      apply Finset.sum_congr rfl
      intro u hu
      apply Finset.sum_congr rfl
      intro v hv
      rw [e2 u (mem_range.1 hu), e2 v (mem_range.1 hv)]
  · intro u v hu hv
    rw [e2 u hu, e2 v hv, ← prep_cluster hi hp u v hu hv]
    exact ⟨fun h => e4 _ _ (hpre.maps u hu) (hpre.maps v hv) h, fun h => by rw [h]⟩

/-- C28, `contract_clustering_unbuffered` with growing hash tables: for every graph (with any edge weights), every
clustering and every schedule of the aggregation, the buffer flushes and the remapping. -/
theorem C28_unbuffered_growing (g : Graph) (clustering : Nat → Nat) (hi : Input g clustering) (p : Prep)
    (hp : p.Ok g.n clustering) (earlier : Nat → List Nat) (he : ∀ c, (earlier c).length + 1 < 2 ^ 32) (ev : UEvents)
    (hev : ev.Ok (p.cn g.n clustering)) (order1 order2 : List Write → List Write) (h1 : Reorders order1)
    (h2 : Reorders order2) (m : Mem) :
    ∃ m' mapping', contractUnbuffered? g p clustering (.growing earlier) ev.list order1 order2 m = some (m', mapping') ∧
      Faithful g clustering mapping' (coarse (p.cn g.n clustering) m') :=
  unbuffered_faithful hi hp (k := .growing earlier) he hev h1 h2 m

/-- C28, `contract_clustering_unbuffered`, all three aggregation algorithms; single phase and two phases need
positive edge weights, single phase clusters with less than 2^32 fine edges. -/
theorem C28_unbuffered_partial (g : Graph) (clustering : Nat → Nat) (hi : Input g clustering) (p : Prep)
    (hp : p.Ok g.n clustering) (k : Collector) (hk : k.Ok g p clustering) (ev : UEvents)
    (hev : ev.Ok (p.cn g.n clustering)) (order1 order2 : List Write → List Write) (h1 : Reorders order1)
    (h2 : Reorders order2) (m : Mem) :
    ∃ m' mapping', contractUnbuffered? g p clustering k ev.list order1 order2 m = some (m', mapping') ∧
      Faithful g clustering mapping' (coarse (p.cn g.n clustering) m') :=
  unbuffered_faithful hi hp hk hev h1 h2 m

/-! ## Projection -/

theorem foldl_upd_of (order : List Nat) (f : Nat → Nat) (v : Nat → Nat) (a : Nat → Nat) (i x : Nat)
    (hi : ∃ u ∈ order, f u = i) (hx : ∀ u ∈ order, f u = i → v u = x) :
    order.foldl (fun a u => upd a (f u) (v u)) a i = x := by
  induction order generalizing a with
  | nil => obtain ⟨_, h, _⟩ := hi; simp at h
  | cons u order ih =>
    rw [List.foldl_cons]
    by_cases h : ∃ u ∈ order, f u = i
    · exact ih _ h fun w hw => hx w (List.mem_cons_of_mem _ hw)
    · have hno : ∀ (l : List Nat) (a : Nat → Nat), (∀ w ∈ l, f w ≠ i) →
          l.foldl (fun a u => upd a (f u) (v u)) a i = a i := by
        intro l
        induction l with
        | nil => intro a _; rfl
        | cons w l ihl =>
          intro a hl
          rw [List.foldl_cons, ihl _ fun y hy => hl y (List.mem_cons_of_mem _ hy)]
          exact upd_ne _ _ (Ne.symm (hl w List.mem_cons_self))
      rw [hno _ _ fun w hw e => h ⟨w, hw, e⟩]
      obtain ⟨w, hw, hwi⟩ := hi
      rcases List.mem_cons.1 hw with rfl | hw
      · rw [hwi, upd_same]
        exact hx w List.mem_cons_self hwi
      · exact absurd ⟨w, hw, hwi⟩ h

/-- C28: the projection of a coarse partition assigns every fine node the block of its coarse node, and projecting
the result down again gives the coarse partition back. -/
theorem C28_projection (g h : Graph) (mapping : Nat → Nat) (hc : Contracted g mapping h) (part fine0 coarse0 : Nat → Nat)
    (order1 order2 : List Nat) (h1 : order1.Perm (List.range g.n)) (h2 : order2.Perm (List.range g.n)) :
    (∀ u, u < g.n → projectUp mapping part order1 fine0 u = part (mapping u)) ∧
    ∀ c, c < h.n → projectDown mapping (projectUp mapping part order1 fine0) order2 coarse0 c = part c := by
  have hup : ∀ u, u < g.n → projectUp mapping part order1 fine0 u = part (mapping u) := by
    intro u hu
    exact foldl_upd_of order1 (fun i => i) (fun i => part (mapping i)) fine0 u _
      ⟨u, h1.mem_iff.2 (List.mem_range.2 hu), rfl⟩ (fun w _ e => by rw [e])
  refine ⟨hup, fun c hcn => ?_⟩
  obtain ⟨u, hu, hm⟩ := hc.onto c hcn
  refine foldl_upd_of order2 mapping _ coarse0 c _ ⟨u, h2.mem_iff.2 (List.mem_range.2 hu), hm⟩ ?_
  intro w hw e
  rw [hup w (List.mem_range.1 (h2.mem_iff.1 hw)), e]

/-! ## Examples -/

/-- A sequential preprocessing with arbitrary (here: 77) array contents. -/
def seqPrep (n cn : Nat) : Prep where
  map := ⟨List.range n, List.range n, List.range n⟩
  buckets := ⟨List.range (cn + 1), List.range n, (List.range n).map Step.take ++ (List.range n).map Step.store⟩
  leader := fun _ => 77
  index := fun _ => 77
  bucketMem := fun _ => 77
  slots := fun _ => 77

theorem seqPrep_ok {n cn : Nat} {clustering : Nat → Nat} (h : (seqPrep n cn).cn n clustering = cn) :
    (seqPrep n cn).Ok n clustering := by
  refine ⟨⟨List.Perm.refl _, List.Perm.refl _, List.Perm.refl _⟩, ?_⟩
  rw [h]
  refine ⟨List.Perm.refl _, List.Perm.refl _, List.Perm.refl _, ?_⟩
  intro i u hi
  have hi : ((List.range n).map Step.take ++ (List.range n).map Step.store)[i]? = some (Step.store u) := hi
  by_cases hlt : i < n
  · rw [List.getElem?_append_left (by simpa using hlt), List.getElem?_map, List.getElem?_range hlt] at hi
    simp at hi
  · have hu : u < n := by
      have := List.mem_of_getElem? hi
      simpa using this
    show Step.take u ∈ ((List.range n).map Step.take ++ (List.range n).map Step.store).take i
    rw [List.take_append]
    refine List.mem_append_left _ ?_
    rw [List.take_of_length_le (by simpa using hlt)]
    exact List.mem_map.2 ⟨u, List.mem_range.2 hu, rfl⟩

/-- Graph on 6 nodes: a cycle 0-1-2-3-4-5 with chord 1-4. -/
def exGraph : Graph where
  n := 6
  w := fun u => [1, 2, 3, 4, 5, 6].getD u 0
  adj := fun u => [[(1, 1), (5, 2)], [(0, 1), (2, 3), (4, 4)], [(1, 3), (3, 5)], [(2, 5), (4, 6)],
    [(3, 6), (5, 7), (1, 4)], [(4, 7), (0, 2)]].getD u []

/-- Clusters {0, 1}, {2, 3}, {4, 5} with labels 1, 5, 3. -/
def exClustering : Nat → Nat := fun u => [1, 1, 5, 5, 3, 3].getD u 0

theorem exInput : Input exGraph exClustering := by
  refine ⟨?_, by decide, by decide⟩
  intro u hu
  revert u
  decide

theorem exPositive : PositiveEdges exGraph := by
  intro u hu
  revert u
  decide

theorem exSmall : SmallClusters exGraph exClustering := by
  intro l
  have h : ((List.range exGraph.n).filter (exClustering · = l)).Sublist (List.range 6) := List.filter_sublist
  have h2 : ∀ {a b : List Nat} (f : Nat → Nat), a.Sublist b → (a.map f).sum ≤ (b.map f).sum := by
    intro a b f hs
    induction hs with
    | slnil => simp
    | cons a _ ih => rw [List.map_cons, List.sum_cons]; omega
    | cons_cons a _ ih => rw [List.map_cons, List.map_cons, List.sum_cons, List.sum_cons]; omega
  refine Nat.lt_of_le_of_lt (h2 _ h) ?_
  decide

theorem exPrep : (seqPrep 6 3).Ok exGraph.n exClustering := seqPrep_ok (by decide +kernel)

/-- Reversing the writes. -/
theorem reverse_reorders : Reorders List.reverse := fun ws => List.reverse_perm ws

/-- Two threads per chunk that have processed the nodes in descending order; writes are executed in reverse. -/
def exSched (r : Nat × Nat) : ChunkSched :=
  ⟨[(List.range' r.1 (r.2 - r.1)).reverse, []], List.reverse, [1, 0], List.reverse⟩

theorem exSched_ok (r : Nat × Nat) : (exSched r).Ok r.1 r.2 := by
  refine ⟨?_, reverse_reorders, show [1, 0].Perm (List.range 2) by decide, reverse_reorders⟩
  show ([(List.range' r.1 (r.2 - r.1)).reverse, []] : List (List Nat)).flatten.Perm _
  simp [List.reverse_perm]

/-- Every thread has handled all smaller coarse nodes before. -/
def exEarlier (c : Nat) : List Nat := (List.range c).filter (· < 3)

theorem exEarlier_ok (c : Nat) : ∀ d ∈ exEarlier c, d < (seqPrep 6 3).cn exGraph.n exClustering := by
  intro d hd
  have h : (seqPrep 6 3).cn exGraph.n exClustering = 3 := by decide +kernel
  rw [h]
  simpa using (List.mem_filter.1 hd).2

/-- The hypotheses of `C28_buffered_partial` hold for the example, with two chunks and a chunk buffer of 2 edges. -/
example : ∃ m', buffered? 2 exGraph (seqPrep 6 3) exClustering (some 8) exEarlier exSched (fun _ => 0) =
    some m' ∧ Faithful exGraph exClustering ((seqPrep 6 3).mapping exGraph.n exClustering)
      (coarse ((seqPrep 6 3).cn exGraph.n exClustering) m') :=
  C28_buffered_partial exGraph exClustering exInput exPositive exSmall _ exPrep (some 8) _ exEarlier_ok 2 (by decide)
    exSched (fun r _ => exSched_ok r) _ rfl

example : ∃ m', naive? exGraph (seqPrep 6 3) exClustering exEarlier exEarlier exEarlier id List.reverse (fun _ => 0) =
    some m' ∧ Faithful exGraph exClustering ((seqPrep 6 3).mapping exGraph.n exClustering)
      (coarse ((seqPrep 6 3).cn exGraph.n exClustering) m') :=
  C28_naive_partial exGraph exClustering exInput exPositive exSmall _ exPrep exEarlier exEarlier exEarlier
    (by
      intro c d hd
      rcases List.mem_append.1 hd with h | h
      · exact exEarlier_ok c d h
      · rcases List.mem_append.1 h with h | h <;> exact exEarlier_ok c d h)
    id List.reverse (fun _ => List.Perm.refl _) reverse_reorders _ rfl

/-- Two threads; coarse node 1 is postponed to the second phase. -/
def exEvents : UEvents := ⟨[(5, 2), (4, 0)], [4, 5], [1]⟩

theorem exEvents_ok : exEvents.Ok 3 := ⟨by decide, by decide, by decide⟩

theorem exCn : (seqPrep 6 3).cn exGraph.n exClustering = 3 := by decide +kernel

/-- Each row is collected in two segments by two threads. -/
def exTwoPhase : Collector :=
  let ins := fun c => inputs exGraph ((seqPrep 6 3).mapping exGraph.n exClustering) ((seqPrep 6 3).bucket exGraph.n exClustering c) c
  .twoPhase (fun _ => [[(0, 5), (2, 4)]])
    (fun c => [⟨0, [], (ins c).take 1⟩, ⟨1, [[(1, 3)]], (ins c).drop 1⟩]) (fun _ => List.reverse) (fun _ => [1, 0])

theorem keys_of_length {n : Nat} {l : List (Nat × Int)} (h : l.length ≤ n) : Keys n l :=
  (keys_length l).mono h fun _ h => h

theorem exLength : ∀ c, c < 3 → (inputs exGraph ((seqPrep 6 3).mapping exGraph.n exClustering)
    ((seqPrep 6 3).bucket exGraph.n exClustering c) c).length ≤ 6 := by
  decide +kernel

theorem exTwoPhase_ok : exTwoPhase.Ok exGraph (seqPrep 6 3) exClustering := by
  refine ⟨exPositive, ?_, ?_, ?_, fun c l => List.reverse_perm l, fun c => by simp, ?_⟩
  · intro c l hl
    have hl : l ∈ [[(0, (5 : Int)), (2, 4)]] := hl
    rw [List.mem_singleton.1 hl]
    exact keys_of_length (by decide)
  · intro c hc s hs
    rw [exCn] at hc
    have hlen := exLength c hc
    rcases List.mem_cons.1 hs with rfl | hs
    · refine ⟨keys_of_length ?_, by simp⟩
      show (List.take 1 (inputs exGraph ((seqPrep 6 3).mapping exGraph.n exClustering)
        ((seqPrep 6 3).bucket exGraph.n exClustering c) c)).length ≤ _
      rw [List.length_take]; omega
    · rw [List.mem_singleton.1 hs]
      refine ⟨keys_of_length ?_, ?_⟩
      · show (List.drop 1 (inputs exGraph ((seqPrep 6 3).mapping exGraph.n exClustering)
          ((seqPrep 6 3).bucket exGraph.n exClustering c) c)).length ≤ _
        rw [List.length_drop]; omega
      · intro l hl
        rw [List.mem_singleton.1 hl]
        exact keys_of_length (by decide)
  · intro c _
    show (List.flatten [List.take 1 _, List.drop 1 _]).Perm _
    rw [List.flatten_cons, List.flatten_cons, List.flatten_nil, List.append_nil, List.take_append_drop]
  · intro c s hs
    rcases List.mem_cons.1 hs with rfl | hs
    · simp
    · rw [List.mem_singleton.1 hs]; simp

example : ∃ m' mapping', contractUnbuffered? exGraph (seqPrep 6 3) exClustering exTwoPhase exEvents.list id
    List.reverse (fun _ => 5) = some (m', mapping') ∧
    Faithful exGraph exClustering mapping' (coarse ((seqPrep 6 3).cn exGraph.n exClustering) m') :=
  C28_unbuffered_partial exGraph exClustering exInput _ exPrep exTwoPhase exTwoPhase_ok exEvents
    (by rw [exCn]; exact exEvents_ok) id List.reverse (fun _ => List.Perm.refl _) reverse_reorders _

example : ∃ m' mapping', contractUnbuffered? exGraph (seqPrep 6 3) exClustering (.growing exEarlier) exEvents.list id
    List.reverse (fun _ => 5) = some (m', mapping') ∧
    Faithful exGraph exClustering mapping' (coarse ((seqPrep 6 3).cn exGraph.n exClustering) m') :=
  C28_unbuffered_growing exGraph exClustering exInput _ exPrep exEarlier
    (by
      intro c
      have h : (exEarlier c).length ≤ 3 := by
        have := nodup_length_le (l := exEarlier c) (m := List.range 3) (List.nodup_range.filter _)
          (fun d hd => by simpa using (List.mem_filter.1 hd).2)
        simpa using this
      omega) exEvents
    (by rw [exCn]; exact exEvents_ok) id List.reverse (fun _ => List.Perm.refl _) reverse_reorders _

/-! ## Zero edge weights -/

theorem zero_incs : ∀ (ins : List (Nat × Int)) (s : FastResetArray), (∀ e ∈ ins, e.1 < s.cap ∧ e.2 = 0) →
    (∀ k, s.data k = 0) → ∃ t, run FastResetArray.op s (incs ins) = some t ∧ t.used = s.used ++ ins.map Prod.fst ∧
      ∀ k, t.data k = 0
  | [], s, _, hz => ⟨s, rfl, by simp, hz⟩
  | e :: ins, s, h, hz => by
    obtain ⟨h1, h2⟩ := h e List.mem_cons_self
    obtain ⟨t, e1, e2, e3⟩ := zero_incs ins ⟨s.cap, upd s.data e.1 (s.data e.1 + e.2), s.used ++ [e.1]⟩
      (fun x hx => h x (List.mem_cons_of_mem _ hx))
      (fun k => by
        by_cases hk : k = e.1
        · subst hk; simp only [upd_same, hz, h2]; rfl
        · simp only [upd_ne _ _ hk, hz])
    refine ⟨t, ?_, by rw [e2]; simp, e3⟩
    show (FastResetArray.modify? s e.1 (· + e.2)).bind _ = _
    rw [FastResetArray.modify?, if_neg (by omega), if_pos (hz e.1)]
    exact e1

/-- If all fine edges of a cluster with at least 42 fine edges have weight zero, its row has one entry per fine edge:
`operator[]` of the array adds a key to the list of used entries whenever its value is zero. -/
theorem row_zero {cn : Nat} {ins : Nat → List (Nat × Int)} {up c : Nat} (hcn : cn < 32768) (hup : 42 ≤ up)
    (h : ∀ e ∈ ins c, e.1 < cn ∧ e.2 = 0) : row? cn ins [] up c = some (ins c) := by
  have hsel : selectMap cn up = .large := by
    unfold selectMap
    rw [if_neg (by omega), if_pos (Or.inl hcn)]
  obtain ⟨t, e1, e2, e3⟩ := zero_incs (ins c) (FastResetArray.new cn) h fun _ => rfl
  unfold row?
  rw [hsel]
  show (run FastResetArray.op (FastResetArray.new cn) (session [] (ins c))).map FastResetArray.entries = _
  rw [show session [] (ins c) = incs (ins c) from rfl, e1, Option.map_some, FastResetArray.entries, e2]
  congr 1
  rw [show (FastResetArray.new cn).used ++ (ins c).map Prod.fst = (ins c).map Prod.fst from rfl, List.map_map]
  conv_rhs => rw [← List.map_id (ins c)]
  apply List.map_congr_left
  intro e he
  simp only [Function.comp, e3, id]
  exact Prod.ext rfl (h e he).2.symm

/-- Complete bipartite graph with 7 + 7 nodes and edge weights zero. -/
def zGraph : Graph where
  n := 14
  w := fun _ => 1
  adj := fun u => if u < 7 then (List.range' 7 7).map (·, 0) else (List.range 7).map (·, 0)

/-- One cluster per side. -/
def zClustering (u : Nat) : Nat := if u < 7 then 3 else 9

theorem zInput : Input zGraph zClustering := by
  refine ⟨?_, by decide, by decide⟩
  intro u hu
  revert u
  decide

theorem zCn : (seqPrep 14 2).cn zGraph.n zClustering = 2 := by decide +kernel

theorem zDegree : ∀ c, c < 2 → fineDegree zGraph ((seqPrep 14 2).bucket zGraph.n zClustering) c = 49 := by
  decide +kernel

theorem zLength : ∀ c, c < 2 → (inputs zGraph ((seqPrep 14 2).mapping zGraph.n zClustering)
    ((seqPrep 14 2).bucket zGraph.n zClustering c) c).length = 49 := by
  decide +kernel

theorem zSymm : ∀ u, u < 14 → ∀ v, v < 14 → (zGraph.adj u).count (v, 0) = (zGraph.adj v).count (u, 0) := by
  decide +kernel

/-- C28 fails for zero edge weights: contracting a symmetric graph with zero edge weights (the two sides of a
complete bipartite graph) by the buffered algorithm yields a coarse graph with 49 parallel edges. -/
theorem C28_zero_weight_counterexample : Input zGraph zClustering ∧ zGraph.Symm ∧
    (seqPrep 14 2).Ok zGraph.n zClustering ∧
    ∃ m', buffered? (2 ^ 15) zGraph (seqPrep 14 2) zClustering none (fun _ => []) exSched (fun _ => 0) = some m' ∧
      ((coarse 2 m').adj 0).length = 49 ∧ ¬ (((coarse 2 m').adj 0).map Prod.fst).Nodup := by
  have hp : (seqPrep 14 2).Ok zGraph.n zClustering := seqPrep_ok zCn
  have hpre := prep_pre zInput hp
  rw [zCn] at hpre
  refine ⟨zInput, ?_, hp, ?_⟩
  · intro u v w hu hv
    by_cases hw : w = 0
    · subst hw
      exact zSymm u hu v hv
    · have h0 : ∀ u v, (zGraph.adj u).count (v, w) = 0 := by
        intro u v
        rw [List.count_eq_zero]
        intro h
        simp only [zGraph] at h
        split at h <;>
        · obtain ⟨x, _, hx⟩ := List.mem_map.1 h
          exact hw (Prod.mk.inj hx).2.symm
      rw [h0, h0]
  have hins : ∀ c, c < 2 → ∀ e ∈ inputs zGraph ((seqPrep 14 2).mapping zGraph.n zClustering)
      ((seqPrep 14 2).bucket zGraph.n zClustering c) c, e.1 < 2 ∧ e.2 = 0 := by
    intro c hc e he
    refine ⟨ins_keys hpre hc e he, ?_⟩
    obtain ⟨u, hu, f, hf, _, rfl⟩ := mem_inputs.1 he
    show f.2 = 0
    simp only [zGraph] at hf
    split at hf <;> (obtain ⟨x, _, rfl⟩ := List.mem_map.1 hf; rfl)
  obtain ⟨col, hrows, hcol⟩ := rows_some (cn := 2)
    (f := fun c => row? 2 (fun c => inputs zGraph ((seqPrep 14 2).mapping zGraph.n zClustering)
      ((seqPrep 14 2).bucket zGraph.n zClustering c) c)
      (([] : List Nat).map fun d => (fineDegree zGraph ((seqPrep 14 2).bucket zGraph.n zClustering) d, d))
      (fineDegree zGraph ((seqPrep 14 2).bucket zGraph.n zClustering) c) c)
    (P := fun c out => out = inputs zGraph ((seqPrep 14 2).mapping zGraph.n zClustering)
      ((seqPrep 14 2).bucket zGraph.n zClustering c) c)
    fun c hc => ⟨_, row_zero (ins := fun c => inputs zGraph ((seqPrep 14 2).mapping zGraph.n zClustering)
      ((seqPrep 14 2).bucket zGraph.n zClustering c) c) (by omega) (by rw [zDegree c hc]; omega) (hins c hc), rfl⟩
  obtain ⟨m', e1, d1⟩ := loop_ok (K := 2 ^ 15) (by omega) (col := col)
    (wgt := fun c => bucketWeight zGraph ((seqPrep 14 2).bucket zGraph.n zClustering c)) (cn := 2)
    ([(0, 2)].map fun r => (r, exSched r)) 0 (fun _ => 0) ⟨rfl, by omega, rfl⟩
    (fun r hr => by
      obtain ⟨x, hx, rfl⟩ := List.mem_map.1 hr
      exact exSched_ok x)
    (done_zero rfl)
  have hadj : (coarse 2 m').adj 0 = _ := ((coarse_of_done d1 (by omega : 0 < 2)).2).trans (hcol 0 (by omega))
  refine ⟨m', ?_, ?_, ?_⟩
  · unfold buffered?
    simp only [zCn, hrows, Option.bind_some]
    exact e1
  · rw [hadj, zLength 0 (by omega)]
  · rw [hadj]
    intro hnd
    have := nodup_length_le (m := List.range 2) hnd (fun d hd => by
      obtain ⟨e, he, rfl⟩ := List.mem_map.1 hd
      exact List.mem_range.2 (hins 0 (by omega) e he).1)
    rw [List.length_map, zLength 0 (by omega), List.length_range] at this
    omega

end Verif.Contraction
