import Verif.Subgraph.Lemmas

/-! Lemmas: the counting loops and the bucket loops of the parallel extraction. -/

namespace Verif.Subgraph
open Verif.Contraction (psum psum_succ psum_congr psum_mono prefixSum_eq)

/-! ## Counting -/

theorem countNodes_eq (part : Nat → Nat) (us : List Nat) (b : Nat) :
    countNodes part us b = us.countP (part · = b) := by
  have key : ∀ (us : List Nat) (s : Nat),
      us.foldl (fun s u => if part u = b then s + 1 else s) s = s + us.countP (part · = b) := by
    intro us
    induction us with
    | nil => intro s; rfl
    | cons a us ih =>
      intro s
      rw [List.foldl_cons, ih, List.countP_cons]
      by_cases h : part a = b
      · simp [h]; omega
      · simp [h]
  rw [countNodes, key, Nat.zero_add]

/-- The number of edges of `u` that stay in block `b`. -/
def deg (g : LGraph) (part : Nat → Nat) (b u : Nat) : Nat := (g.adj u).countP fun e => part e.1 = b

theorem countEdges_eq (g : LGraph) (part : Nat → Nat) (us : List Nat) (b : Nat) :
    countEdges g part us b = ((us.filter (part · = b)).map (deg g part b)).sum := by
  have key : ∀ (us : List Nat) (s : Nat),
      us.foldl (fun s u => if part u = b then s + (g.adj u).countP (fun e => part e.1 = b) else s) s =
        s + ((us.filter (part · = b)).map (deg g part b)).sum := by
    intro us
    induction us with
    | nil => intro s; rfl
    | cons a us ih =>
      intro s
      rw [List.foldl_cons, ih, List.filter_cons]
      by_cases h : part a = b
      · simp [h, deg]; omega
      · simp [h]
  rw [countEdges, key, Nat.zero_add]

theorem mergeCounts_eq {cnt : List Nat → Nat → Nat} {f : List Nat → Nat} {b : Nat}
    (h0 : f [] = 0) (ha : ∀ l l', f (l ++ l') = f l + f l') (hc : ∀ l, cnt l b = f l) (threads : List (List Nat)) :
    mergeCounts cnt threads b = f threads.flatten := by
  have key : ∀ (ts : List (List Nat)) (s : Nat),
      ts.foldl (fun s us => s + cnt us b) s = s + f ts.flatten := by
    intro ts
    induction ts with
    | nil => intro s; simp [h0]
    | cons t ts ih =>
      intro s
      rw [List.foldl_cons, ih, List.flatten_cons, ha, hc]
      omega
  rw [mergeCounts, key, Nat.zero_add]

/-- The number of nodes of a block. -/
def bsize (n : Nat) (part : Nat → Nat) (b : Nat) : Nat := (List.range n).countP (part · = b)

/-- The number of edges inside a block. -/
def bedges (g : LGraph) (part : Nat → Nat) (b : Nat) : Nat :=
  (((List.range g.length).filter (part · = b)).map (deg g part b)).sum

theorem merge_nodes {n : Nat} {part : Nat → Nat} {threads : List (List Nat)}
    (h : threads.flatten.Perm (List.range n)) (b : Nat) :
    mergeCounts (countNodes part) threads b = bsize n part b := by
  rw [mergeCounts_eq (f := fun us => us.countP (part · = b)) rfl (fun l l' => List.countP_append)
    (fun l => countNodes_eq part l b), h.countP_eq, bsize]

theorem merge_edges {g : LGraph} {part : Nat → Nat} {threads : List (List Nat)}
    (h : threads.flatten.Perm (List.range g.length)) (b : Nat) :
    mergeCounts (countEdges g part) threads b = bedges g part b := by
  rw [mergeCounts_eq (f := fun us => ((us.filter (part · = b)).map (deg g part b)).sum) rfl
    (fun l l' => by rw [List.filter_append, List.map_append, List.sum_append])
    (fun l => countEdges_eq g part l b)]
  exact ((h.filter _).map _).sum_eq

theorem offsets_eq {k i : Nat} (a : Nat → Nat) (h : i ≤ k) : offsets k a i = psum a i := by
  rw [offsets, prefixSum_eq _ (by omega)]
  induction i with
  | zero => simp [psum]
  | succ i ih =>
    rw [psum_succ, ih (by omega), psum_succ]
    simp

/-! ## Buckets -/

/-- The nodes that have taken a position, in order. -/
def takes (l : List Step) : List Nat := l.filterMap fun | .take u => some u | .store _ => none

/-- The nodes that have stored themselves. -/
def stores (l : List Step) : List Nat := l.filterMap fun | .store u => some u | .take _ => none

theorem takes_append (l l' : List Step) : takes (l ++ l') = takes l ++ takes l' := List.filterMap_append
theorem stores_append (l l' : List Step) : stores (l ++ l') = stores l ++ stores l' := List.filterMap_append

theorem mem_takes {l : List Step} {u : Nat} : u ∈ takes l ↔ Step.take u ∈ l := by
  unfold takes
  rw [List.mem_filterMap]
  constructor
  · rintro ⟨s, hs, h⟩
    cases s with
    | take v => simp at h; subst h; exact hs
    | store v => simp at h
  · intro h; exact ⟨_, h, rfl⟩

/-- The nodes of block `b` in the order in which they have taken their positions. -/
def inBlock (part : Nat → Nat) (done : List Step) (b : Nat) : List Nat := (takes done).filter (part · = b)

structure BInv (part start : Nat → Nat) (done : List Step) (s : BState) : Prop where
  index : ∀ b, s.index b = (inBlock part done b).length
  slot : ∀ b i, (h : i < (inBlock part done b).length) → s.slot (inBlock part done b)[i] = i
  stored : ∀ u ∈ stores done, s.nodes (start (part u) + s.slot u) = u ∧ s.mapping u = s.slot u

/-- The positions of different blocks do not overlap. -/
def Sep (n k : Nat) (part start : Nat → Nat) : Prop :=
  ∀ b, b < k → start b + bsize n part b ≤ start (b + 1)

theorem sep_le {n k : Nat} {part start : Nat → Nat} (hsep : Sep n k part start) {a b : Nat} (hab : a < b)
    (hb : b ≤ k) : start a + bsize n part a ≤ start b := by
  induction b with
  | zero => omega
  | succ b ih =>
    have h := hsep b (by omega)
    rcases Nat.lt_or_eq_of_le (Nat.le_of_lt_succ hab) with h' | rfl
    · have := ih h' (by omega); omega
    · exact h

theorem slot_lt {n : Nat} {part start : Nat → Nat} {done : List Step} {s : BState} (hi : BInv part start done s)
    {rest : List Nat} (hp : (takes done ++ rest).Perm (List.range n)) {u : Nat} (hu : u ∈ takes done) :
    s.slot u < bsize n part (part u) ∧ u < n := by
  have hm : u ∈ inBlock part done (part u) := List.mem_filter.2 ⟨hu, by simp⟩
  obtain ⟨i, h, he⟩ := List.getElem_of_mem hm
  have h1 := hi.slot (part u) i h
  rw [he] at h1
  refine ⟨?_, List.mem_range.1 (hp.mem_iff.1 (List.mem_append_left _ hu))⟩
  rw [h1, bsize, ← hp.countP_eq, List.countP_append]
  have : (inBlock part done (part u)).length = (takes done).countP (part · = part u) :=
    (List.countP_eq_length_filter ..).symm
  omega

theorem slot_inj {part start : Nat → Nat} {done : List Step} {s : BState} (hi : BInv part start done s)
    {u v : Nat} (hu : u ∈ takes done) (hv : v ∈ takes done) (hb : part u = part v) (h : s.slot u = s.slot v) :
    u = v := by
  have hmu : u ∈ inBlock part done (part u) := List.mem_filter.2 ⟨hu, by simp⟩
  have hmv : v ∈ inBlock part done (part u) := List.mem_filter.2 ⟨hv, by simp [hb]⟩
  obtain ⟨i, hi', he⟩ := List.getElem_of_mem hmu
  obtain ⟨j, hj', he'⟩ := List.getElem_of_mem hmv
  have h1 := hi.slot _ i hi'
  have h2 := hi.slot _ j hj'
  rw [he] at h1
  rw [he'] at h2
  have : i = j := by omega
  subst this
  rw [← he, ← he']

theorem place_inj {n k : Nat} {part start : Nat → Nat} (hsep : Sep n k part start)
    (hk : ∀ u, u < n → part u < k) {done : List Step} {s : BState} (hi : BInv part start done s)
    {rest : List Nat} (hp : (takes done ++ rest).Perm (List.range n)) {u v : Nat}
    (hu : u ∈ takes done) (hv : v ∈ takes done)
    (h : start (part u) + s.slot u = start (part v) + s.slot v) : u = v := by
  have hu1 := slot_lt hi hp hu
  have hv1 := slot_lt hi hp hv
  have hb : part u = part v := by
    rcases Nat.lt_trichotomy (part u) (part v) with hl | he | hl
    · have := sep_le hsep hl (Nat.le_of_lt (hk v hv1.2)); omega
    · exact he
    · have := sep_le hsep hl (Nat.le_of_lt (hk u hu1.2)); omega
  exact slot_inj hi hu hv hb (by rw [hb] at h; omega)

theorem bucket_step {n k : Nat} {part start : Nat → Nat} (hsep : Sep n k part start)
    (hk : ∀ u, u < n → part u < k) {done : List Step} {s : BState} {st : Step} (hi : BInv part start done s)
    {rest : List Nat} (hp : (takes (done ++ [st]) ++ rest).Perm (List.range n))
    (hsub : ∀ u ∈ stores done, u ∈ takes done) (hst : ∀ u, st = .store u → u ∈ takes done) :
    BInv part start (done ++ [st]) (bucketStep part start s st) := by
  have hnd : (takes (done ++ [st]) ++ rest).Nodup := hp.nodup_iff.2 List.nodup_range
  cases st with
  | take u =>
    have ht : takes (done ++ [Step.take u]) = takes done ++ [u] := by rw [takes_append]; rfl
    have hs : stores (done ++ [Step.take u]) = stores done := by rw [stores_append]; simp [stores]
    rw [ht] at hp hnd
    have hun : u ∉ takes done := by
      intro h
      have := (List.nodup_append.1 (List.nodup_append.1 hnd).1).2.2 u h u (by simp)
      exact this rfl
    have hin : ∀ b, inBlock part (done ++ [Step.take u]) b =
        inBlock part done b ++ if part u = b then [u] else [] := by
      intro b
      rw [inBlock, ht, List.filter_append, inBlock]
      congr 1
      by_cases h : part u = b <;> simp [h]
    constructor
    · intro b
      show upd s.index (part u) _ b = _
      rw [hin]
      by_cases hc : b = part u
      · subst hc
        rw [upd_same, hi.index]
        simp
      · rw [upd_ne _ _ hc, hi.index, if_neg (Ne.symm hc), List.append_nil]
    · intro b i h
      show upd s.slot u _ _ = _
      simp only [hin] at h ⊢
      by_cases hlt : i < (inBlock part done b).length
      · rw [List.getElem_append_left hlt, upd_ne]
        · exact hi.slot b i hlt
        · intro e
          exact hun (e ▸ (List.mem_filter.1 (List.getElem_mem hlt)).1)
      · by_cases hc : part u = b
        · subst hc
          simp only [if_true, List.length_append, List.length_singleton] at h
          have hie : i = (inBlock part done (part u)).length := by omega
          subst hie
          simp [hi.index]
        · simp [hc] at h
          omega
    · intro v hv
      rw [hs] at hv
      have hne : v ≠ u := fun e => hun (e ▸ hsub v hv)
      show s.nodes (start (part v) + upd s.slot u _ v) = v ∧ s.mapping v = upd s.slot u _ v
      rw [upd_ne _ _ hne]
      exact hi.stored v hv
  | store u =>
    have ht : takes (done ++ [Step.store u]) = takes done := by rw [takes_append]; simp [takes]
    have hs : stores (done ++ [Step.store u]) = stores done ++ [u] := by rw [stores_append]; rfl
    have hin : ∀ b, inBlock part (done ++ [Step.store u]) b = inBlock part done b := by
      intro b; rw [inBlock, ht, inBlock]
    rw [ht] at hp
    have hu : u ∈ takes done := hst u rfl
    constructor
    · intro b; rw [hin]; exact hi.index b
    · intro b i h
      simp only [hin] at h ⊢
      exact hi.slot b i h
    · intro v hv
      rw [hs] at hv
      show upd s.nodes (start (part u) + s.slot u) u (start (part v) + s.slot v) = v ∧ upd s.mapping u (s.slot u) v = s.slot v
      by_cases hvu : v = u
      · subst hvu; rw [upd_same, upd_same]; exact ⟨rfl, rfl⟩
      · have hv' : v ∈ stores done := by simpa [hvu] using hv
        rw [upd_ne _ _ fun e => hvu (place_inj hsep hk hi hp (hsub v hv') hu e), upd_ne _ _ hvu]
        exact hi.stored v hv'

theorem bucket_run {n k : Nat} {part start : Nat → Nat} (hsep : Sep n k part start)
    (hk : ∀ u, u < n → part u < k) : ∀ (todo done : List Step) (s : BState),
    BInv part start done s → (takes (done ++ todo)).Perm (List.range n) →
    (∀ u ∈ stores done, u ∈ takes done) →
    (∀ pre u, done ++ pre ++ [Step.store u] <+: done ++ todo → Step.take u ∈ done ++ pre) →
    BInv part start (done ++ todo) (todo.foldl (bucketStep part start) s)
  | [], done, s, hi, _, _, _ => by rw [List.append_nil]; exact hi
  | st :: todo, done, s, hi, hp, hsub, hca => by
    rw [List.foldl_cons]
    have hst : ∀ u, st = .store u → u ∈ takes done := by
      intro u hu
      subst hu
      have := hca [] u ⟨todo, by simp⟩
      rw [List.append_nil] at this
      exact mem_takes.2 this
    have e : done ++ st :: todo = done ++ [st] ++ todo := by simp
    rw [e] at hp hca ⊢
    rw [takes_append] at hp
    refine bucket_run hsep hk todo (done ++ [st]) _ (bucket_step hsep hk hi hp hsub hst) ?_ ?_ ?_
    · rw [takes_append]; exact hp
    · intro u hu
      rw [stores_append] at hu
      rw [takes_append]
      rcases List.mem_append.1 hu with hu | hu
      · exact List.mem_append_left _ (hsub u hu)
      · cases st with
        | take v => simp [stores] at hu
        | store v =>
          simp [stores] at hu
          subst hu
          exact List.mem_append_left _ (hst u rfl)
    · intro pre u hpre
      have := hca (st :: pre) u (by simpa using hpre)
      simpa using this

theorem map_takes_perm {n : Nat} {l : List Step}
    (h : l.Perm ((List.range n).map Step.take ++ (List.range n).map Step.store)) :
    (takes l).Perm (List.range n) ∧ (stores l).Perm (List.range n) := by
  have h1 : ∀ m : List Nat, takes (m.map Step.take ++ m.map Step.store) = m := by
    intro m
    rw [takes_append]
    have a : takes (m.map Step.take) = m := by
      unfold takes; rw [List.filterMap_map]; induction m <;> simp_all
    have b : takes (m.map Step.store) = [] := by
      unfold takes; rw [List.filterMap_map]; induction m <;> simp_all
    rw [a, b, List.append_nil]
  have h2 : ∀ m : List Nat, stores (m.map Step.take ++ m.map Step.store) = m := by
    intro m
    rw [stores_append]
    have a : stores (m.map Step.take) = [] := by
      unfold stores; rw [List.filterMap_map]; induction m <;> simp_all
    have b : stores (m.map Step.store) = m := by
      unfold stores; rw [List.filterMap_map]; induction m <;> simp_all
    rw [a, b, List.nil_append]
  have p1 : (takes l).Perm _ := h.filterMap _
  have p2 : (stores l).Perm _ := h.filterMap _
  exact ⟨h1 (List.range n) ▸ p1, h2 (List.range n) ▸ p2⟩

/-- What the bucket loop achieves: `ns b` lists the nodes of block `b`. -/
structure Bucketed (n : Nat) (part start : Nat → Nat) (s : BState) (ns : Nat → List Nat) : Prop where
  perm : ∀ b, (ns b).Perm ((List.range n).filter (part · = b))
  index : ∀ b, s.index b = (ns b).length
  nodes : ∀ b i, (h : i < (ns b).length) → s.nodes (start b + i) = (ns b)[i]
  mapping : ∀ b i, (h : i < (ns b).length) → s.mapping (ns b)[i] = i

theorem Bucketed.length {n : Nat} {part start : Nat → Nat} {s : BState} {ns : Nat → List Nat}
    (h : Bucketed n part start s ns) (b : Nat) : (ns b).length = bsize n part b := by
  rw [(h.perm b).length_eq, ← List.countP_eq_length_filter]; rfl

theorem bucketed {n k : Nat} {part start : Nat → Nat} (hsep : Sep n k part start)
    (hk : ∀ u, u < n → part u < k) {steps : List Step}
    (hsteps : steps.Perm ((List.range n).map Step.take ++ (List.range n).map Step.store))
    (hca : ∀ i u, steps[i]? = some (Step.store u) → Step.take u ∈ steps.take i)
    (nodes mapping slot : Nat → Nat) :
    Bucketed n part start (steps.foldl (bucketStep part start) ⟨fun _ => 0, nodes, mapping, slot⟩)
      (inBlock part steps) := by
  obtain ⟨htp, hsp⟩ := map_takes_perm hsteps
  have hi0 : BInv part start [] ⟨fun _ => 0, nodes, mapping, slot⟩ := by
    constructor
    · intro b; rfl
    · intro b i h; simp [inBlock, takes] at h
    · intro u hu; simp [stores] at hu
  have hfin : BInv part start steps
      (steps.foldl (bucketStep part start) ⟨fun _ => 0, nodes, mapping, slot⟩) := by
    refine bucket_run hsep hk steps [] _ hi0 htp (fun u hu => by simp [stores] at hu) ?_
    intro pre u hpre
    obtain ⟨t, ht⟩ := hpre
    rw [List.nil_append, List.nil_append] at ht
    have := hca pre.length u (by rw [← ht]; simp)
    rw [← ht] at this
    simpa using this
  constructor
  · intro b; exact htp.filter _
  · exact hfin.index
  · intro b i h
    have hm := List.mem_filter.1 (List.getElem_mem h)
    have hst := (hfin.stored _ (hsp.mem_iff.2 (htp.mem_iff.1 hm.1))).1
    have hpb : part (inBlock part steps b)[i] = b := by simpa using hm.2
    rw [hpb, hfin.slot b i h] at hst
    exact hst
  · intro b i h
    have hm := List.mem_filter.1 (List.getElem_mem h)
    rw [(hfin.stored _ (hsp.mem_iff.2 (htp.mem_iff.1 hm.1))).2, hfin.slot b i h]

end Verif.Subgraph
