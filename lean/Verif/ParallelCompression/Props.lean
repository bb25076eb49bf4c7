import Verif.ParallelCompression.ChunkLemmas

/-!
# C08: parallel compression gives the sequential result

Specification: `fetch_and_update` must return, for the chunk with number `e`, the total size of the
chunks before it, whatever the threads' schedule; the chunks must partition the nodes in order; and
after all threads have finished, the compressed graph must be the one the sequential builder yields.
-/

namespace Verif.ParallelCompression

open Verif.Compression

/-- C08, spin lock vector: for every number of threads, number of chunks, chunk sizes and schedule,
the calls of `fetch_and_update` complete in chunk order and each returns the total size of the
chunks before its own.  In particular no chunk is handed out twice. -/
theorem C08_spinlock_offsets (T N : Nat) (delta : Nat → Nat) (sched : List Nat) :
    let s := Spin.run T N delta sched
    s.out.length ≤ N ∧
      s.out = (List.range s.out.length).map fun e => (e, ((List.range e).map delta).sum) := by
  obtain ⟨d, h⟩ := SInv.run T N delta sched
  have hl : (Spin.run T N delta sched).out.length = d := by rw [h.out]; simp
  simp only [hl]
  exact ⟨Nat.le_trans h.hd h.hN, h.out⟩

/-- C08, spin lock vector: as long as chunks remain, some thread can make a step that changes its
state (no deadlock). -/
theorem C08_spinlock_progress (T N : Nat) (delta : Nat → Nat) (sched : List Nat) (hT : 0 < T)
    (h : (Spin.run T N delta sched).out.length < N) :
    ∃ t, t < T ∧ (Spin.run T N delta (sched ++ [t])).pc t ≠ (Spin.run T N delta sched).pc t := by
  obtain ⟨d, hd⟩ := SInv.run T N delta sched
  have hl : (Spin.run T N delta sched).out.length = d := by rw [hd.out]; simp
  obtain ⟨t, h1, h2⟩ := hd.progress hT (by omega)
  refine ⟨t, h1, ?_⟩
  rw [Spin.run, List.foldl_append]
  exact h2

/-- C08, mutex vector (the one used by the parallel builder): as for the spin lock; moreover the
`try_lock` of `next`, whose success the code only asserts, never fails. -/
theorem C08_mutex_offsets (T N : Nat) (delta : Nat → Nat) (sched : List Nat) :
    let s := Mut.run T N delta sched
    s.failed = false ∧ s.out.length ≤ N ∧
      s.out = (List.range s.out.length).map fun e => (e, ((List.range e).map delta).sum) := by
  obtain ⟨d, h⟩ := MInv.run T N delta sched
  have hl : (Mut.run T N delta sched).out.length = d := by rw [h.out]; simp
  simp only [hl]
  exact ⟨h.ok, Nat.le_trans h.hd h.hN, h.out⟩

/-- C08, mutex vector: no deadlock. -/
theorem C08_mutex_progress (T N : Nat) (delta : Nat → Nat) (sched : List Nat) (hT : 0 < T)
    (h : (Mut.run T N delta sched).out.length < N) :
    ∃ t, t < T ∧ (Mut.run T N delta (sched ++ [t])).pc t ≠ (Mut.run T N delta sched).pc t := by
  obtain ⟨d, hd⟩ := MInv.run T N delta sched
  have hl : (Mut.run T N delta sched).out.length = d := by rw [hd.out]; simp
  obtain ⟨t, h1, h2⟩ := hd.progress hT (by omega)
  refine ⟨t, h1, ?_⟩
  rw [Mut.run, List.foldl_append]
  exact h2

/-- Two threads, three chunks of sizes 5, 6, 7, an interleaved schedule that finishes. -/
example : (Spin.run 2 3 (· + 5) [1, 0, 0, 1, 1, 1, 0, 0, 0, 1, 1, 1, 1]).out =
    [(0, 0), (1, 5), (2, 11)] := by decide
example : (Mut.run 2 3 (· + 5) [1, 0, 0, 1, 1, 1, 1, 0, 0, 0, 0, 1, 1, 1, 1, 1]).out =
    [(0, 0), (1, 5), (2, 11)] := by decide

/-- C08, chunks: for every degree sequence and edge limit, the chunks are non-empty, enumerate all
nodes in order exactly once, start at the right edge, and have fewer edges than the limit unless
they consist of a single node. -/
theorem C08_chunks_partition_nodes (maxOrder : Nat) (degrees : List Nat) :
    (computeChunks maxOrder degrees).flatMap (fun (start, «end», _) =>
      List.range' start («end» - start)) = List.range degrees.length ∧
    ∀ ch ∈ computeChunks maxOrder degrees,
      ch.1 < ch.2.1 ∧ ch.2.2 = (degrees.take ch.1).sum ∧
      (ch.2.1 = ch.1 + 1 ∨ ((degrees.take ch.2.1).drop ch.1).sum < maxOrder) := by
  have h := computeChunks_tiles maxOrder degrees
  refine ⟨?_, fun ch hch => ?_⟩
  · have := h.flat
    rw [Nat.sub_zero, ← List.range_eq_range'] at this
    exact this
  · obtain ⟨h1, _, h3⟩ := h.mem ch hch
    exact ⟨h1, h3⟩

example : computeChunks 5 [2, 2, 7, 1, 1, 9] = [(0, 2, 0), (2, 3, 4), (3, 5, 11), (5, 6, 13)] := by
  decide

/-- C08: whenever the sequential builder compresses the graph to `cg`, the parallel builder does, for
every edge limit, number of threads and schedule that lets all iterations finish, and for every
interleaving of the threads' single-element writes (`byteOrder`, `nodeOrder`).  `outs` are the
compressed chunks and `sizes` their sizes. -/
theorem C08_parallel_equals_sequential (c : Cfg) (hasW : Bool) (wE maxOrder T : Nat)
    (g : List (List Nbr)) (cg : Compressed) (hseq : compress? c hasW wE g = some cg) :
    let chunks := computeChunks maxOrder (g.map List.length)
    ∃ outs, chunks.mapM (compressChunk? c hasW wE g) = some outs ∧
      let out := fun e => outs.getD e ([], [])
      let size := fun e => (out e).2.length
      ∀ sched, (Mut.run T chunks.length size sched).out.length = chunks.length →
        let log := (Mut.run T chunks.length size sched).out
        ∀ byteOrder nodeOrder : List (Nat × Nat),
          byteOrder.Perm (log.flatMap fun (e, offset) => byteWrites offset (out e)) →
          nodeOrder.Perm (log.flatMap fun (e, offset) =>
            nodeWrites (chunks.getD e (0, 0, 0)).1 offset (out e)) →
          build? c g.length (log.map fun (e, _) => size e).sum (writeAll nodeOrder)
            (writeAll byteOrder) = some cg := by
  intro chunks
  have hseq' : ∃ p, addNodes? c hasW wE 0 0 g = some p ∧
      cg = { nodes := p.1 ++ [p.2.length],
             bytes := p.2 ++ (if c.svb then List.replicate 15 0 else []) } := by
    unfold compress? at hseq
    cases hp : addNodes? c hasW wE 0 0 g with
    | none => rw [hp] at hseq; cases hseq
    | some p => rw [hp] at hseq; exact ⟨p, rfl, by cases hseq; rfl⟩
  obtain ⟨p, hp, rfl⟩ := hseq'
  have ht := computeChunks_tiles maxOrder (g.map List.length)
  rw [List.length_map] at ht
  obtain ⟨outs, h1, h2, h3, h4⟩ := chunks_seq c hasW wE g _ chunks 0 g.length 0 p ht (Nat.le_refl _)
    (by rw [Nat.sub_zero, List.drop_zero, List.take_length]; exact hp)
  refine ⟨outs, h1, ?_⟩
  intro out size sched hdone log byteOrder nodeOrder hb hn
  have hN : outs.length = chunks.length := by
    have := congrArg List.length h4; simpa using this
  have hlog : log = (List.range chunks.length).map fun e => (e, pre size e) := by
    have := (C08_mutex_offsets T chunks.length size sched).2.2
    rw [hdone] at this
    exact this
  have hsum : (log.map fun (e, _) => size e).sum = p.2.length := by
    rw [hlog, List.map_map, h2, List.length_flatMap]
    congr 1
    rw [← hN]
    apply List.ext_getElem
    · simp
    · intro i i1 i2
      simp at i2
      simp [size, out, i2]
  have hbytes : byteOrder.Perm (writes 0 p.2) := by
    refine hb.trans (List.Perm.of_eq ?_)
    rw [hlog, List.flatMap_map]
    simp only [byteWrites]
    rw [flatMap_writes (fun e => (out e).2) (pre size) chunks.length]
    · rw [h2, ← hN]; exact congrArg _ (getD_range_flatMap _ _ outs)
    · intro e _; rw [pre_length]
  have hnodes : nodeOrder.Perm (writes 0 p.1) := by
    refine hn.trans (List.Perm.of_eq ?_)
    rw [hlog, List.flatMap_map]
    simp only [nodeWrites]
    have hpl := placed_range ([], []) outs chunks.length (by omega)
    rw [flatMap_writes (fun e => (out e).1.map (pre size e + ·)) (fun e => (chunks.getD e (0, 0, 0)).1)]
    · rw [h3]
      have : outs.take chunks.length = outs := List.take_of_length_le (by omega)
      rw [this] at hpl
      exact congrArg _ hpl
    · intro e he
      rw [pre_length]
      simp only [List.length_map]
      -- the start of chunk `e` is the number of nodes in the chunks before it
      have hstart : ∀ (cs : List (Nat × Nat × Nat)) (os : List (List Nat × List Nat)) (a b : Nat)
          (P : Nat × Nat × Nat → Prop), Tiles P a cs b →
          os.map (·.1.length) = cs.map (fun ch => ch.2.1 - ch.1) → ∀ e, e < cs.length →
          (cs.getD e (0, 0, 0)).1 = a + pre (fun e => (os.getD e ([], [])).1.length) e := by
        intro cs
        induction cs with
        | nil => intro os a b P _ _ e he; simp at he
        | cons ch cs ih =>
          intro os a b P ⟨g1, g2, _, g4⟩ hos e he
          cases os with
          | nil => simp at hos
          | cons o os =>
            simp only [List.map_cons, List.cons.injEq] at hos
            cases e with
            | zero => simp [pre, g1]
            | succ e =>
              have := ih os ch.2.1 b P g4 hos.2 e (by simpa using he)
              rw [List.getD_cons_succ, this]
              have hpre : pre (fun e => ((o :: os).getD e ([], [])).1.length) (e + 1) =
                  o.1.length + pre (fun e => (os.getD e ([], [])).1.length) e := by
                simp [pre, List.range_succ_eq_map, List.map_map, Function.comp_def]
              rw [hpre, hos.1]
              omega
      have := hstart chunks outs 0 g.length _ ht h4 e he
      rw [Nat.zero_add] at this
      exact this
  unfold build?
  have e1 := readAll_writes hnodes
  have e2 := readAll_writes hbytes
  rw [addNodes_length c hasW wE g 0 0 p hp] at e1
  rw [hsum, e1, e2]
  rfl

/-- The hypotheses are met: a weighted graph whose three chunks are compressed by two threads. -/
example : ∃ cg, compress? ⟨false, false, false⟩ true 64
      [[(1, 5), (2, 6)], [(0, 5)], [(0, 6), (1, 1), (1, 2)]] = some cg ∧
    (computeChunks 3 [2, 1, 3]).length = 3 ∧
    (Mut.run 2 3 (· + 5) [1, 0, 0, 1, 1, 1, 1, 0, 0, 0, 0, 1, 1, 1, 1, 1]).out.length = 3 := by
  refine ⟨_, rfl, ?_, ?_⟩ <;> decide

end Verif.ParallelCompression
