# Formal model of KaMinPar in Lean 4: design

## Layout

* `properties.jsonl`: the property list (C01, C02, ...), in API terms.
* `lean/Verif/<Area>/Model.lean`: executable model of the code of one area. Each
  definition cites the file and lines of `/repo` it models, and states simplifications.
* `lean/Verif/<Area>/Lemmas*.lean`: helper lemmas.
* `lean/Verif/<Area>/Props.lean`: a small specification that does not mention the model's
  helpers, the property theorems, and beside each theorem an `example` that meets its
  hypotheses.
* `MANIFEST.json`: property -> theorem names and status.
* `seeded/LOG.jsonl`: results of running the theorems against deliberately wrong models.

## Modelling conventions

* Unsigned C++ integers are `Nat` when the property is not about wrap-around, and then the
  needed bounds are hypotheses or are proved. Where wrap-around, shifts or bit packing are the
  point (varints, packed hash maps, markers) the arithmetic is modulo `2^w` explicitly.
  Signed weights are `Int`.
* Arrays are `List` or functions; an out-of-bounds access is a distinct outcome (`none`), not a
  default value, wherever the code could perform one.
* Undefined behaviour (shift by the type width, out of range access, `clamp` with `lo > hi`)
  is modelled as `none`.
* Concurrent code is modelled as a small-step transition system whose steps are the atomic
  operations of the code; theorems quantify over all finite schedules. Sequential consistency is
  assumed: effects of relaxed memory order are not modelled.
* A parallel loop whose iterations touch disjoint data is modelled by a loop over an arbitrary
  permutation/split of the iterations and the theorem says that the result does not depend on it.
* Random choices and choices of unmodelled components (thread scheduling, tie breaking, the
  quality of a bisection) are parameters; theorems quantify over them.

## Trusted base

* Lean 4.33.0's kernel. The axioms used are at most `propext`, `Classical.choice`,
  `Quot.sound`; there are no other axioms, no `sorry`, no `native_decide`, no `bv_decide`.
* The reading of the C++ code: nothing here is extracted from it. Each definition cites the lines.
* Outside every model: the C++ compiler and standard library, TBB's scheduler (only "each
  iteration runs once, in any order or interleaving" is used), memory allocation, floating point
  (see the individual entries), timers, logging, MPI itself (collectives are modelled by their
  specification), relaxed-memory effects.

## Plan per property

| Id | Modelled | Proof idea |
|----|----------|------------|
| C01 | `compute_local_range`, `compute_local_range_rank`, `deterministic_for` | arithmetic; concatenation of the ranges is `0..n-1` |
| C02 | `degree_bucket`, `lowest_degree_in_bucket`, `floor_log2` | `Nat.log2` bounds |
| C03 | `distribute_round_robin` | false in general: witness n=7, size=3; proved when size divides n |
| C04 | `compute_final_k`, `compute_first_sub_block` incl. the nibble table bit reversal | induction over levels; bit reversal recursion |
| C05 | `varint.h` | induction on 7-bit groups |
| C06 | `CompressedEdgesBuilder`, `CompressedNeighborhoods` | decoder inverts encoder, by induction over gaps, intervals, parts |
| C07 | `streamvbyte.h` 32 bit | per-group inversion, induction over groups |
| C08 | `ConcurrentCircularVectorMutex`, the chunk assignment and the parallel compression loop | invariant over all schedules; result equals the sequential compression |
| C09 | `BinaryHeap` | refinement to a finite map; heap-order invariant |
| C10 | `SparseMap`, `FastResetArray`, `FixedSizeSparseMap` | refinement to function |
| C11 | `CompactHashMap` | probe-path invariant; refinement to function |
| C12 | `DynamicFlatMap`, `DynamicRememberingFlatMap` | same |
| C13 | `Marker` | refinement; counter bound invariant |
| C14 | `CompactStaticArray` | byte-level memory model |
| C15 | rank bit vector | counting lemma |
| C16 | `aligned_prefix_sum` | induction over the entries and chunks |
| C17, C18 | `PartitionedGraph` | invariant over all interleavings of atomic steps |
| C19, C20 | `metrics.h`, `PartitionContext::setup` | sums; rounding |
| C21 | `DeltaPartitionedGraph` | refinement |
| C22..C26 | permutator, CSR graph, isolated nodes, `compute_partition` | counting sort correctness; composition |
| C27 | `validate_graph` | decision procedure iff specification |
| C28, C29 | contraction | sums over clusters; permutation invariance over schedules |
| C30, C31 | subgraph extraction, recursive bisection labels | list lemmas, tree induction |
| C32..C35 | gain caches | invariant cache = connectivity over interleavings of fetch_add |
| C36..C38 | FM | loop invariant over arbitrary policy; C37 is false: schedule witness |
| C39 | label propagation refinement | projection to the machine of C17/C18; provenance of moves; cut invariant for one thread |
| C40 | label propagation clustering | invariants over all interleavings; the limit holds up to one node per further thread: witness |
| C41 | greedy balancer | invariants over all interleavings of the tasks of the blocks and arbitrary priorities |
| C42 | Jet refiner with the sparse gain cache and the balancer | composition of C17, C19, C35 and C41; invariant over rounds and iterations |
| C43 | `Queue` | refinement to list; `tail()` reads past the newest element: witness |
| C44 | `partition_utils.cc` | arithmetic |
| C45 | `grid_topology.h`, `grid_alltoall.h`, with MPI's communicator split and all-to-all as specified | place of each rank in the grid; contents of every buffer after each of the four exchanges |
| C46 | `streamvbyte.h` 64 bit | per-group inversion; false for 3, 5, 6, 7 byte values: witness |
| C47 | reductions and prefix sum of `parallel/algorithm.h` | induction over the tree of tasks |
| C48 | edge reordering of `permutator.cc`: `apply_permutation`, interval rotation, splitting | invariant over the cycles of the permutation; loop invariant against the interval parser of the encoder |
| C49 | `binary_reduction_tree.h`: the loop of each rank, as a transition system with message queues | configuration reached from the number of rounds each rank has done; progress measure |
| C50 | rounds of `node_balancer.cc` after the candidates are chosen: the combiner of `reductions.h`, moves on all ranks, dice, ghost updates | invariant of the combiner, induction over the reduction tree of C49; block weights as sums over the partition |
| C51 | `alltoall.h`, `sparse_alltoall.h`: programs of the ranks as trees of send, receive and wait; asynchronous execution with message queues | steps of different ranks commute, so one finished execution determines all; one execution by induction over ranks; buffers as in C45 |
| C52 | `sparse_allreduce.h`, recursive doubling, in the same asynchronous model | as C51; each rank holds the sum over its block of `2^i` ranks after `i` rounds |
| C53 | `initial_fm_refiner.cc`: queues, selection, acceptance, rollback, rounds; oracles for chunks, permutations, coins, ties and stopping | invariant over the iterations: keys are exact changes of the cut, block weights exact, the accepted prefix is restored |
| C54 | `initial_coarsener.cc`, `sequential_graph_hierarchy.cc`: label propagation, contraction with interleaved clustering of the next level, projection; oracles for orders, coins, convergence and reused memory | invariant of the clustering (leaders, exact weights, connected clusters, locked leaders), counting sort of the clusters, induction over the calls and levels |
| C55 | `initial_bfs_bipartitioner.cc`, `initial_ggg_bipartitioner.cc`, `initial_random_bipartitioner.cc`: all loops, queues with their capacity, markers, the heap of greedy graph growing as a partial map with arbitrary tie breaks; random numbers are oracles | invariants of the loops with a measure for termination; weights of the blocks as sums over the assigned nodes |
| C56 | `seed_node_utils.cc`: breadth first search with `last level` bookkeeping, best pair over the attempts | levels of the search are the distances; the last node of the last level is furthest |
| C57 | `initial_pool_bipartitioner.cc`, `initial_multilevel_bipartitioner.cc`, on top of the models of C53, C54, C55: repetitions, adaptive selection (oracle), comparison, swapping of arrays, coarsening loop, projection and refinement | invariant of the pool over a ghost list of all results; number of nodes decreases for the coarsening loop; induction over the levels |
| C58 | `create_kway_context`, `create_twoway_context` (`helper.cc`), `PartitionContext` (`kaminpar.h`, `kaminpar.cc`): limits, relaxing, inferred and adapted imbalance; doubles are rationals followed by a rounding with relative error `2^-53`, `std::pow` is arbitrary | final blocks of a block by halving (C04); rounding errors of the relaxed and adapted limits are bounded; a greedy assignment meets limits with room for one more node per block |
| C59 | `DeepMultilevelPartitioner` (`deep_multilevel.cc`) with its three modes of initial partitioning (`sync_initial_partitioning.cc`, `async_initial_partitioning.cc`), `KWayMultilevelPartitioner`, `RBMultilevelPartitioner`, `select_best` and `extend_partition` (`helper.h`, `helper.cc`): levels, numbers of blocks, memory for subgraphs; coarsener, bipartitioner and refiner are arbitrary within the contracts of C17, C28, C29, C36, C39-C42, C55, C57 | induction over levels, copies and extensions with C31 (extending), C44 (numbers of blocks) and C58 (limits); invariant relating the recorded memory size to the levels that are still extended |
| C60 | the tokenizer over a memory-mapped file (`file_toker.h`; bytes up to the end of the last page are zero, behind it is undefined), the METIS reader, the compressing METIS reader and the METIS writer (`shm_metis_parser.cc`), partition, node mapping and block size files (`shm_io.cc`) with the widths of all types; assertions of debug builds are a distinct outcome | a grammar of the format (`Files/Spec.lean`, inductive predicates on characters) and induction over its derivations; the graph is then compared through C26 |
| C61 | the memory-mapped reader (`binary_util.h`), the header with its version word, `csr_read`, `csr_read_deg_buckets` and the writer of `shm_parhip_parser.cc` on bytes, with the four type widths of the writing and the reading build as parameters | byte-level lemmas (little-endian coding is injective on its range, an array is read where it was written), then C26 for the graph made of the arrays; loop invariants for the two loops of the renumbering reader |
| C62 | `write`, `read`, `verify_header`, `is_compressed` of `shm_compressed_graph_binary.cc` on bytes, with all build options as parameters | the reader is run on the written bytes symbolically; the flags are decided by a kernel computation over all 2^10 combinations |
| C63 | `validate_undirected_graph` and `binary_find` of `shm_input_validator.cc` with the loop of `std::lower_bound`; the result of `std::sort` is any array that is a sorted permutation per node | loop invariants of the binary search (soundness without assumptions, completeness for distinct targets) |
| C64 | `import_graph`, `GhostNodeMapper` and the accessors of `DistributedCSRGraph`; the loops over edges and hash table run in any order | loop invariants (ghost IDs are consecutive, table and counter agree); owner lookup by C01 |
| C65 | both functions that build messages for interface nodes (count, column prefix sums, fill through decreasing counters), the exchange of C51, the receivers of the synchronizations and the end of `import_graph` | closed form of the send buffers by induction over an arbitrary interleaving, then permutation with the messages in the order of the nodes; C01, C51, C64 |
| C66 | the sums of `metrics.cc`, `init_block_weights` and `init_total_weights` with arbitrary splits between threads, overflow is undefined | nonnegative partial sums stay below the bound; each cut edge is counted from both ends; tiling of the global nodes |
| C67 | an iteration of `JetRefiner::refine` on all processes with the exchanges of C65, `BestPartitionSnapshooter` with 32-bit cuts | the filtered exchange of C65; weights as sums over the owners of nodes; induction over the updates of the snapshot |
| C68 | the number of blocks through `extend_partition` on every level, with fuel for the loop and undefined behaviour as an outcome | powers of two are preserved; divisibility by K as an invariant of the loop refutes the claim for other numbers |
| C69 | `replicate_graph_everywhere` with `MPI_Allgatherv` as writes at 32-bit displacements, the loops over nodes in any order and any blocks | induction over the processes for the gathered arrays; the search for the owner of a node; one position for every edge |
| C70 | `distribute_best_partition` with `MPI_MINLOC` and `MPI_Bcast`, `distribute_partition` with `MPI_Scatterv` and the exchange of C65, the cut of the copies of C69 | the cut of a copy is the cut of the distributed graph; the minimum of a fold; C65 for ghost nodes |
| C71 | `init_chunks` with racing tasks as a step system, `bucketRanges`, `shuffle_chunks` as any permutation, `perform` as a step system over claimed chunks, permutations of nodes and sub-chunks | invariants: the `c`-th claim gets the nodes `[c·s, (c+1)·s)`, whatever the schedule; the log, the queues and the chunks that are not claimed form a permutation of all nodes |
| C72 | the byte array, offsets through the model of `aligned_prefix_sum` (C16), tables through `CompactHashMap` (C34), entries of 1, 2, 4 or 8 bytes | the windows of the nodes are disjoint; every window represents the sum over the edges whose update has been applied; the invariant of C35 for histories and interleavings |
| C73 | the exchange of nodes, the numbering, the exchange of the mapping, the exchange of edges, ghost nodes, buckets, rating maps, the exchange of ghost weights (C65) and the projection as functions of all processes | numbers of used clusters as ranks; what each process sends and receives in closed form; totals per coarse edge regrouped over processes; the arrays satisfy the relation of C64 |
| C74 | the overloads, the loop with the heap over sorted processes, the underloads, the retry, the remapping and the exchange with ghost nodes (C65) as functions of all processes | the loop computes the unique level up to which processes are filled, so the plan does not depend on the order; prefix sums of what leaves and what arrives match, so new IDs are unique and in range; then C73 |
| C75 | the visits of nodes, the exchange of a superstep (C65 for a range of nodes), passes and the outer loop, as functions of the states of all processes | a simulation by a colouring of the whole graph in which processes see old colours of others; invariant: of two adjacent nodes with the same colour, the one with the larger ID is still active and the other one is on another process; each two passes finish the smallest node that is not finished |
| C76 | scores of own nodes, lazily computed scores of ghost nodes, the visits of nodes in an arbitrary order | invariant of the score array; exact characterization of the chosen nodes; two adjacent chosen nodes would each have the smaller score |
| C77 | colouring (C75) and sorting of nodes by colours, search of moves with arbitrary stale views of the local changes, the three strategies of execution with their reductions, the exchange of moves (C65) | cut and weights of a set of moves inside an independent colour class add up; invariants over rounds, phases and iterations; binary-tree reduction of candidates; bucket sort |
| C78 | the local arrays (C22 with ghost nodes), the exchange of the new numbers of border nodes (C65), the new tables of ghost nodes, both permutations and the copy to the array of the caller | C22 gives the new rows; an invariant over the received messages gives the tables; the new arrays represent a graph whose neighbourhoods are those of the old one with new numbers; edges of both graphs are permutations of each other |
| C79 | the selection of blocks with arbitrary reads, the execution, check and rollback of moves on all processes, the exchange of new blocks, the loops over attempts, chunks and iterations | the moves of all processes change the known weights by the sum of their changes; the check and its repetition bound the weights; the exchange of C77 restores a common partition; on one process each visit with exact reads changes the cut by the negated gain |
| C80 | the selection of clusters with arbitrary reads, the exchange and enforcement of cluster weights, the exchange of clusters of ghost nodes with the updates of weights, the merging of isolated nodes, the loops over chunks and iterations | invariant: each process has the weights of the clusters of all its nodes and ghost nodes, of the clusters its nodes left, and of the clusters it owns, and unchanged nodes have the common cluster; the exchange turns the clusters of the owners into the new common clustering; isolated nodes are never ghost nodes; on one process the stored weight of a cluster is at least its weight and at most the limit or the weight of its name |
| C81 | the coarsening loop with the convergence test, the hierarchy, initial partitioning on copies, the choice of the best partition, projection and refinement on each level, the sequence of refiners | a coarse graph is again an input of the same kind (no larger, undirected, without loops, with the same total node weight), so the hierarchy is a tower of quotients, by induction over the levels; cuts and block weights are the same on all levels; each accepted level has fewer nodes, which bounds the loop |
| C82 | the loop over the nodes of a colour, with outdated reads and compare-and-swaps that fail, the messages of requests, the packing of weight and ghost node into one entry, responses, synchronization, nodes that remain alone | nodes of one colour are not adjacent, so a node that asks is never asked in the same round; an invariant for each process (which pairs are new), an exact description of accepted requests, and an invariant over the colours: an entry is missing, the node itself, or a neighbour that leads a cluster of two |
| C83 | the branches of each process (different branches are a deadlock), the counting of matched nodes, the sum over all processes, the contraction | the nodes whose cluster has their own name are in one-to-one correspondence with the clusters, because names are idempotent (the matching of C82); the numbers of the processes tile the nodes |
| C84 | the computation of the limits from the last v-cycle to the first (a read beyond the end and an overflow of int are undefined), the loop over the v-cycles | the sum of the numbers of sub-blocks of a partial level, by shifting the sums of two complete levels; induction over the v-cycles |
| C85 | the queues of threads and of the process, the buckets, their compactification, the sum over all processes, the cutoffs on process 0, the broadcast, the candidates | invariant of the queue (a node is left out only if the queue is heavy enough); the index of a bucket determines block and bucket; the loop over the buckets stops at the first prefix that is heavy enough; if no process stops early, all proposals add up to this prefix |
| C86 | touches of FastResetArray, the list of ghost nodes and clusters, the adjacency array with its superfluous entries, moves of clusters and ghost nodes on the flat array of connections, find_max_conn, the builder of singletons | every update adds delta(src,dst,b) of the weight between the two clusters; the sum over the edges of one cluster to another is a double sum over the nodes and so symmetric; the adjacency array is a list of slices of the sorted list; induction over the moves |
| C87 | growth of one cluster with an arbitrary order of the frontier and an arbitrary stopping policy, the connections with other blocks, the best prefix, the nodes that are given back, the rows of the connections, the loop over the nodes | invariant of the growth (marks, frontier, own key is zero, so the prefix is not empty) and of the loop over all nodes; the marks after finish_cluster are the best prefix and one more node; termination because every iteration marks a new node |
| C88 | the limit for each strategy before it is multiplied, the search for a feasible target, the loop over the clusters in the parallel round with an arbitrary decision which clusters are picked, on one process | folds over the blocks; cyclic distance from the own block as the measure of the search; invariant of the loop over the clusters with the theorem about targets of C86; for a limit that is not positive, the growth loop of C87 ends before its first iteration |
| C89 | the counts per label, both prefix sums, the loop that fills the array of the nodes, the indices, the marks and the connections, for arbitrary labels | invariant of the loop: the slice of every label holds the nodes seen so far, slices are disjoint since the start positions are prefix sums, numbers of clusters are injective on used labels; the first index of a cluster is the end of the cluster before it |
| C90 | the dice loop (shared with the node balancer), the message targets per node with their marker, the moves of the owners, the received messages, both ways of updating block weights, on all processes | a cluster is expanded into moves of its nodes; the net weights are the same; every process applies a subset of the moves of all processes that contains all moves of nodes it knows |
| C91 | the reduction (shared with the node balancer), the deltas of the root, the assignment of blocks, the broadcast and the moves on all processes | winners are feasible (C50), so the deltas are within the free weight of every block; the assignment keeps this (C88); the moves are those of C90; the net weight of the selection is the change of the block weights |
| C92 | the loop with its outdated keys, the buckets, the candidates that are put back, for any priority queue that returns a largest key | the limit plus the number of outdated keys bounds the number of iterations; invariant: queue and candidates together are the clusters of the queue, buckets are exact, no remaining key is larger than the gain of a candidate |
| C93 | the changed limit, the loop over the blocks with its counter, the cut-offs and the index of each block, the test of the clusters; the sums of the buckets are those of C85 | at most the changed limit remains iff the fraction of the overload is removed; hence the blocks above it are the overloaded blocks and the counter is the position in the array |

## Findings

Properties that are false of the code in some case. Each has a theorem with a concrete witness, and the
property is proved under the condition that excludes it.

* C03: `distribute_round_robin` is not injective unless `size^2` divides `n`.
* C04: `compute_first_sub_block` shifts by 32 bits for the root; wrong for `current_k` that is not a power of two.
* C09: `BinaryHeap::remove` gives the element the smallest representable key and pops; it removes a
  different element if another one has the same key.
* C10: `FastResetArray` records a position again whenever it is accessed while its value is 0;
  `FixedSizeSparseMap` loops forever when it is full.
* C11: `CompactHashMap` overwrites a different key when a new key is added to a full map; `key_bits = 0`
  (one block) shifts by the word width, which is undefined.
* C12: after `2^w` clears the timestamp wraps and old entries reappear.
* C46: the 64-bit StreamVByte codec announces widths that differ from the bytes written.
* C13: `Marker` with values wider than 32 bits masks them with a 32-bit mask; after `2^(32-K)` resets
  marks are lost.
* C14: `CompactStaticArray::restrict` applied twice forgets the original size.
* C15: `RankCombinedBitVector::rank(length)` reads behind the end if 498 divides the length.
* C43: `Queue::tail()` does not return the newest element but the place behind it.
* C16: the parallel prefix sum returns 0 for a single entry; alignments that do not divide 8 are not respected.
* C17: `PartitionedGraph`'s constructor for `k >= 65536` accesses `_block_weights[kInvalidBlockID]` for unassigned nodes.
* C20: with 64-bit weights `ceil(1.0 * total / k)` can be smaller than `total / k` (witness: total `2^53 + 1`, one block).
  Explicit limits leave the imbalance of an earlier set-up in place, which `epsilon()` then reports.
* C22: with a node of degree `2^31` or more, `degree_bucket` returns the bucket that is meant for isolated nodes.
* C23: arrays over borrowed memory keep `_unrestricted_size = 0`, so re-integrating isolated nodes drops all nodes;
  in a sorted graph `first_node_in_bucket` is wrong until the isolated nodes are removed.
* C24: `assign_isolated_nodes` puts everything that does not fit into the last block, even if other blocks have room.
* C26: `is_node_weighted`/`is_edge_weighted` compare the total weight with the count, so weights such as 0 and 2 are
  read as 1 and 1; the sequential constructor of `CSRGraph` does not set `_max_degree`; an empty graph with
  `sorted = true` dereferences past the end of the bucket array.
* C27: `validate_graph` compares an edge only with the first edge back (parallel edges of different weights are rejected),
  and it never checks the length of `adjncy`.
* C28: an edge of weight zero makes the array-based collector (clusters with 42 or more fine edges) list a neighbour
  more than once, so the coarse graph has parallel edges. `upper_bound_degree` is a 32-bit sum: with 64-bit edge IDs a
  cluster with `2^32` fine edges selects a hash table that is too small.
* C29: for an empty graph `leader_mapping[n - 1]` is read outside of the array.
* C30: the thread-local memory of the lazy extraction grows the array of edge (node) weights only when the array of
  edges (nodes) grows; after a larger graph without weights, a smaller graph with weights is written out of bounds.
* C31: `complete_partial_extend_partition` assumes that exactly the first blocks of the level are already split. With 10 of
  11 blocks it assigns label 11 in a partition with 11 blocks.
* C32: `is_border_node` compares the weighted degree with the connection to the own block, so a node whose only edges to
  other blocks have weight 0 is not recognised. `OnTheFlyGainCache::gain` with equal blocks reports minus the connection
  and `gain` with two equal targets reports a wrong second value.
* C34: `LargeKDeltaGainCache::gains` without exact gains reports gains for the blocks that became adjacent by local moves
  and connections for the others.
* C35: entries of the sparse gain cache have only `W - ceil(log2 k)` bits for the connection, which is not checked; an
  edge that needs more is lost. `unlock` stores with relaxed order, so on weakly ordered machines the updates of the
  table need not be visible to the next holder of the lock (not modelled).
* C36: with `num_seed_nodes = 0` a batch takes no border node and the loop over the batches of the FM refiner never ends.
* C37: an FM worker checks the weight of a block against its delta partition, but other workers change the shared weights
  before it applies its moves; two overlapping batches overload a block.
* C38: `_next_border_node` is increased even if all border nodes were handed out; if it wraps around (narrow node IDs
  and many workers), border nodes are handed out again.
* C39: a node moves to a block because it had a neighbour there when it looked; the neighbour may have left when the node
  moves, and two neighbours may swap blocks, which increases the cut. With a limit on the number of neighbours the counted
  gain is not the change of the cut. The selection requires `weight + node < max`, so it never fills a block exactly.
* C40: two threads may both see room in a cluster and both join, so clusters exceed the limit by up to one node per
  further thread. Two threads that empty a cluster together both count it, and a cluster whose nodes have weight zero is
  counted as empty; the maintained number of clusters, which stops coarsening, is then too small. Merging isolated nodes
  and two-hop clustering do not update this number.
* C41: a node that cannot be moved is put back into the queue, which is never found empty: if all nodes of an overloaded block
  are heavier than the limit of every block, the balancer never returns. Conversely, if it returns then every block is within
  its limit (for limits that are not negative), so the result `false` is never seen. The thread-local weights in `init_pq` are never
  increased, so the bound on the size of the thread-local queues has no effect.
* C42: only cuts are compared when the best partition is chosen, and the input counts as a candidate. If Jet is given an
  overloaded partition, it may return it although it has found a balanced one. Jet does not return if its balancer does not.
* C48: the edge reordering splits neighbourhoods of 10000 or more edges even if the high degree encoding is switched off at compile time; the
  order then differs from the one of the compressed graph (the neighbourhoods are still correct).
* C50: a sequential round of the distributed node balancer can loop forever (`node_balancer.cc` 281-287).  Candidates of a block that only
  one half of the reduction tree proposes are all kept, even if fewer would remove the overload; the root then looks for room for all of
  them, and never stops if there is none.  Two ranks, 14 isolated nodes (5 on rank 0) in one of two blocks with limit 7 suffice:
  the second round proposes 5 nodes although the overload is 2 (`C50_not_terminating`).
* C53: the comment at the acceptance policy (`initial_fm_refiner.cc` 137-138) says that the first balanced cut is accepted if the input is not
  balanced; the code accepts only strictly smaller cuts, so FM never restores the balance at the price of the cut. With
  `num_iterations == 1` the refiner returns `false` also after an improvement. `AdaptiveStoppingPolicy::reset` does not reset the mean `_Mk`.
* C54: `Cluster::weight` is a bit-field of 30 bits, so node weights of 2^29 or more (with 32-bit weights) are cut off and the limit is not obeyed. With edges of
  weight zero the favourite cluster of a node is undefined. The clustering used by a call of `coarsen` is computed during the previous call with the
  limit of that call; the argument is ignored except in the first call and for the next one. `_interleaved_locked` is not reset between graphs (harmless).
* C55: `InitialGGGBipartitioner::fill_bipartition` tests `_partition[u] == V2` for the node `u` that was just moved instead of its neighbour `v`; neighbours are never
  put into the heap, every node of the second block is a fresh random node, and edges have no influence (`C55_ggg_not_greedy`).
  The branch of the breadth first search in which a block waits is unreachable.
* `create_initial_refiner` (initial_refiner.cc) swaps the stopping rules: `ADAPTIVE` creates the refiner with the simple rule and `SIMPLE` the one with the adaptive rule.
* C57: with `use_adaptive_bipartitioner_selection` and `min_num_non_adaptive_repetitions = 0` no bipartitioner is ever run (the variance of no results is 0) and the
  uninitialised or old partition array is returned (`C57_not_without_runs`). A bipartitioner with fewer than two feasible results in the non-adaptive repetitions
  is never run again. A negative convergence threshold would make the coarsening loop endless.
* C58: with an imbalance, the limit of an intermediate block may exceed the sum of the limits of its final blocks, so a feasible intermediate partition need not have a
  feasible refinement (`C58_imbalance_sum_not`). `k = 1` reads `_max_block_weights[1]` beyond the end (`C58_twoway_one_block_not`). With more blocks than weight, the
  adapted limits of a block are 0 and relaxing them computes `0.0 / 0.0`, which is then converted to an integer (`C58_twoway_adaptive_not`); so does an empty block
  (`C58_twoway_empty_block_not`). With doubles, removing isolated nodes may lower the limits of the final blocks by one: for `epsilon = 0`, 15 per block before and 11 after the
  removal, the limit becomes 14.
* C58: with doubles, removing isolated nodes may also raise the limits of the final blocks: for `epsilon = 0.001`, 1000 per block before and 950 after the removal, the caller's limit is
  1000 (`1.001 * 1000` is `1000.99...`) and the limit of the last refinement is 1001.
* C59: with `use_lazy_subgraph_memory = false`, the memory for subgraphs is freed after the extension on the finest level on which the partition still had fewer than `k` blocks when its
  size was computed; if this is the input graph and has fewer than `k` blocks even then, the extension at the top level writes to freed memory (`C59_deep_memory_not_safe`).
* C59: `AsyncInitialPartitioner` passes the context of the caller to `select_best`: bipartitions are compared with the limits of `k` blocks, none is feasible, and the
  smallest cut wins even if another copy was balanced (`C59_async_selection_not_feasible`).
* C59: `k = 1` is not handled by any scheme: two blocks, or `std::clamp(x, 2, 1)` (`C59_one_block_not_supported`). One thread and a load below one computes
  `floor_log2(0)` (`C59_threads_not_defined`).
* C60: after the last line the METIS reader looks for trailing comments without testing for the end of the file: if the file length is a multiple of the page size, it reads behind
  the mapping (`C60_page_multiple_not_readable`, `C60_unreadable_file_exists`: such a file exists for every page size).
* C60: release builds do not check the input: more edges than promised write out of bounds, fewer leave uninitialised edges, CRLF line ends shift the graph by one line, and the
  message "ignoring node sizes" is wrong, they are read as neighbours (`C60_too_many_edges_undefined`, `C60_missing_edges_uninitialised`, `C60_crlf_misread`, `C60_node_sizes_not_ignored`).
* C60: weights are dropped when their total, truncated to the ID type, equals the number of nodes or edges: weights 2 and 0, or one weight 2^32 + 1 (`C60_zero_weight_dropped`,
  `C60_large_weight_dropped`).
* C60: a graph without nodes cannot be compressed while it is read (`C60_compress_empty_undefined`), an empty partition cannot be read (`C60_empty_partition_not_readable`), and
  `read_block_sizes` sums the sizes up in an `int` (`C60_large_block_size_undefined`).
* C61: the offsets of a ParHIP file count bytes but are stored with the edge ID type: with 32-bit IDs every graph with more than about 2^30 edges is written without an error and is
  not read back (`C61_offsets_overflow`).
* C61: the reader does not compare the file length with the header: edges that end behind the last page are undefined behaviour (`C61_short_file_undefined`), edges missing
  from the last page are replaced by edges to node 0 (`C61_truncated_file_accepted`).
* C62: the header stores the number of nodes, but the reader does not use it, and the permutation of a graph that was renumbered while it was read is not stored: the partition of
  such a graph read from a compressed file refers to the new numbers.
* C63: the validator sorts a copy of the edges but looks for repeated edges in the original array: repetitions that are not adjacent in the input are accepted, also if the reverse edge
  exists only once (`C63_repeated_edge_accepted`, `C63_accepted_asymmetric`); self-loops are accepted; a target that is no node is undefined behaviour instead of an error
  (`C63_out_of_range_undefined`).
* C64: `import_graph` allocates `n + mapper.next_ghost_node()` node weights, but `next_ghost_node()` already starts at `n`; the sum is a 32-bit number, so from 2^31 local nodes on the array is too small
  (`C64_many_weighted_nodes`).  64-bit weights of the library interface are narrowed to 32 bits without a check (`C64_large_weight_changed`).
* C65: `import_graph` exchanges the weights of ghost nodes as soon as one process passes node weights; a process that passes none then writes to an empty array (`C65_mixed_node_weights`).
  An edge that only one of two processes knows makes the other one dereference the end iterator of a hash table (`C65_one_sided_edge`).
* C66: `compute_partition` of the distributed partitioner stores the 64-bit cut in a 32-bit `EdgeWeight` before it returns it (`dkaminpar.cc:369`): cuts from 2^31 on are returned as smaller, possibly negative numbers (`C66_returned_cut_truncated`).
  `init_total_weights` adds up the node weights of a process in 32 bits (`C66_total_weight_overflow`).
* C67: the distributed Jet refiner breaks ties between neighbours with equal gains by local IDs (`jet_refiner.cc:285`): two neighbours on different processes both count as first, so both may move although each move assumes that the other stays (example `inpTie`: the cut grows from 2 to 6, on one process it stays 2). The result depends on the number of processes.
  The snapshots compare cuts after a conversion to 32 bits (`C67_round_truncated`).
* C68: distributed deep multilevel partitioning never ends for k > K (128 by default) unless K divides k (`deep_multilevel.cc:205-209`): `k_per_block = next_k / k()` is rounded down, becomes 1, and the loop repeats with the same number of blocks. The property `next_k % k() == 0` is only asserted in debug builds.
  For graphs with fewer nodes than the contraction limit and k > K, `ceil2(0)` calls the built-in count of leading zeros with 0.
* C69: `replicate_graph_everywhere` accepts graphs with up to 2^32 - 2 edges, but computes the displacements of `MPI_Allgatherv` as 32-bit `int`s: with 2^31 or more edges they are negative (`C69_many_edges`; in release builds `asserting_cast` checks nothing).
  A process that passes no weights while another one does sends from an empty array (`C69_mixed_node_weights`, `C69_mixed_edge_weights`).
* C70: `distribute_best_partition` compares cuts only: a partition that violates the limits of the blocks wins against a feasible one with a larger cut (`C70_limits_ignored`).
* C71: `init_chunks` takes the buckets below `floor_log2(max_degree)`, but bucket `b` contains the degrees from `2^(b-1)` to `2^b - 1`. On sorted graphs label propagation therefore leaves out all nodes with at least half or a quarter as many neighbours as the threshold allows: with the threshold 1000000, which is the default for distributed graphs (sorted by default), all nodes with 262144 or more neighbours (`C71_large_nodes_never_handled`).
* C71: the offset from which the tasks claim nodes is a 32-bit word and is increased beyond the size of the bucket by each task; the model needs `n + s·T ≤ 2^32` for `T` tasks and claims of `s` nodes. Otherwise it wraps and nodes are put into two chunks.
* C72: with 64-bit edge weights, a weighted degree and a block ID may need more than 64 bits. The computed width is then 16 bytes, for which there is no case: all updates are dropped and all connections of the node are reported as 0 (`C72_wide_weight_lost`).
* C72: the offsets count bytes but have the type `EdgeID`. With 32-bit edge IDs they overflow on graphs that are far below the limit of the type: up to 16 bytes are needed for each directed edge. The number of bytes of a single node has 32 bits as well.
* C72: `math::ceil2(0)` (undefined: `__builtin_clz(0)`) is called for every isolated node. The result does not matter, because entries of width 0 are never accessed.
* C72: `unlock` stores with relaxed order, so that the updates of a table are formally not visible to the next thread that locks the node; the model is sequentially consistent.
* C73: `build_distribution` passes the MPI type of `NodeID` for the sent count and that of the target type for the received counts; they differ with 64-bit global IDs. MPI requires equal types. The model lets the counts arrive.
* C73: if the processes disagree about the cluster of a ghost node, clusters without nodes become coarse nodes (example in ContractProps); the check is a heavy assertion only.
* C73: `local_cluster_contraction.cc` (not modelled) never sets the weights of the ghost nodes of the coarse graph.
* C74: with fewer coarse nodes than processes `avg_cnode_count` is 0; `compute_assignment_shifts` then starts with the limit 0, and if not all coarse nodes can be placed it computes `x / 0 * 0` and converts NaN to `NodeID` (undefined). Coarse counts [1, 1, 0] are an example; the default threshold of 1.1 is exceeded there.
* C74: the limit for perfect balance is the average rounded down, so it cannot be met if the number of processes does not divide the number of coarse nodes; the limit is then raised by everything that could not be placed and 1 %. From [2, 4, 4, 4] nothing moves although [4, 4, 3, 3] would be better.
* C74: a process can give away coarse nodes and receive others in the same plan if processes with few coarse nodes have no room; IDs stay unique.
* C75: a node with a loop marks its own colour; if it has a neighbour on another process it changes its colour in every pass and stays active, so `compute_node_coloring_sequentially` does not end (`C75_loop_never_ends`).
* C76: whether a border node is chosen depends on the distribution: neighbours on the same process that are not border nodes are ignored, those on other processes are not (example in `IndependentSetProps`).
* C77: `ColoredLPRefiner::initialize` takes `std::max_element` of an empty range if a process has no nodes (clp_refiner.cc 99), undefined behaviour (`C77_empty_process`).
* C77: `perform_best_moves` on one process checks no limits: the only check is that of `find_moves`, which threads make at the same time against weights they do not reserve (`C77_one_process_overload`).
* C77: best moves with `track_local_block_weights = false` and at least two processes write to `_block_weight_deltas`, which is empty (`C77_untracked_best_moves`).
* C77: `perform_local_moves` can overload blocks (`C77_local_moves_overload`); with `num_move_execution_iterations >= 2` it adds block weight changes again that were already added (`C77_local_rounds_wrong_weights`), although a comment says that several rounds have no effect.
* C77: `_block_weight_deltas` and `total_gain` are changed without synchronization in parallel loops (data race); the model lets each reader see an arbitrary state of the changes but adds all gains. `block_gains` and `total_gain` are 32-bit sums that the model does not bound.
* C77: best moves only work on a power of two of processes (assertion in line 402).
* C78: `rearrange_by_coloring` takes `std::max_element` of an empty range if a process has no nodes (rearrangement.cc 59), undefined behaviour (`C78_colors_empty_process`).
* C79: with `ignore_probabilities`, the default (presets.cc 154), the moves of all processes are executed without any check; a block that was feasible can exceed its limit (`C79_overload`), also on one process with two threads, because `move_cluster_weight` reads and adds in two steps (LP 430-439, `C79_two_threads_overload`).
* C79: moves of adjacent nodes on different processes can make the cut worse even when probabilities are used (`C79_worse_cut`).
* C79: `accept_cluster` wants the new weight to be less than the limit and `move_cluster_weight` at most the limit (LP 433 and 447): a node that would fill a block exactly is never moved.
* C79: with zero move attempts, `_block_weights` keeps the weights of moves that were never executed.
* C80: with the default settings (cluster weights exchanged and enforced) two processes with one thread each create a cluster that is heavier than the limit although no node is: the owner of the cluster is not told about the violation, and the other process computes a share that is rounded down to the limit (GLP 518-520, `C80_overload`).
* C80: `_weight_deltas` has no entries for clusters of the process itself (GLP 415-442), therefore `synchronize_ghost_node_clusters` adds the weight of a ghost node that joined such a cluster, which `control_cluster_weights` has already added (GLP 586-602): the owner counts it twice (`C80_owner_counts_twice`).
* C80: `_max_cluster_weight` is a 32-bit `NodeWeight`, the limit is a 64-bit `GlobalNodeWeight` (GLP 135-137): from 2^31 on it becomes negative and no node joins another one (`C80_limit_truncated`).
* C80: `move_cluster_weight` checks the limit and adds the weight in two steps, so that two threads can overload a cluster (`C80_two_threads_overload`).
* C80: GLP 513-520 divides by `increase_by_others + increase_by_me` (or `increase_by_others`), which can be 0; the infinite or undefined result is converted to an integer, undefined behaviour. The model allows any result.
* C80: the owner of a cluster is not told if another process takes back a move (GLP 542-554), and merged isolated nodes are not subtracted from their old cluster (GLP 640): stored weights are too large.
* C81: the refiner gets `_ctx.partition` (KWM 143); the `ref_p_ctx` with the graph of the current level that is computed at KWM 133-134, 156 and 175 is never used.
* C81: for a graph that is just converging, the clustering and contraction of the last level are computed and thrown away (GCO 58-60); with the random seeds of the code this is not repeated, so one unlucky clustering ends the coarsening above the threshold.
* C82: the compare-and-swap loop for requests (HEM 308-325) is repeated while the compare-and-swap *succeeds* and ends when it fails, so a request with a heavier edge can lose against a lighter one (`C82_lighter_request_wins`); only the quality of the matching suffers.
* C82: the blacklist of small colours (HEM 159-200) is computed, with communication, but never read.
* C82: a ghost node that rejects a request is not reset on the process that asked (HEM 361 says so); if it stays unmatched, this process does not ask it again in later rounds. The final clustering is correct all the same.
* C82: `cluster` uses `matching` after it was moved into `_matching`; this works only because the moved-from array keeps its pointer.
* C82: a process without nodes calls `std::max_element` on an empty range and dereferences the result (`C82_empty_process`).
C84: compute_max_block_weights reads beyond the end of next_block_weights if the number of blocks of a v-cycle is not a power of two and the next v-cycle has fewer blocks than the next power of two and does not split each block that is taken as split (C84_reads_beyond), e.g. v-cycles 6,6 for k = 8 or 10 for k = 12.
C84: the sums of limits are accumulated in an int (initial value 0), so with 64-bit weights the limits of v-cycles are truncated (C84_truncated); with 32-bit weights a total limit above 2^31 overflows.
C85: in NodeBalancer::reinit, pq_weight of the queues of threads is never updated, so these queues hold all nodes of overloaded blocks instead of roughly the overload (C85_thread_queue); the result is correct, but needs more memory and time.
C85: without buckets for positive gains, compute_num_buckets is one too small: the neutral bucket is 1, so the last negative bucket does not exist (C85_bucket_beyond).
C85: positive relative gains are products of an edge weight and a node weight; from about 2^53 on, compute_bucket converts a negative number to std::size_t (C85_gain_too_large).
C86: init_ghost_node_adjacency resizes _ghost_node_edges to its final size and then appends with emplace_back, so the array is twice as long as intended and the first ghost node gets one superfluous entry (cluster 0, weight 0) for every real entry of the whole array (C86_superfluous). The connections stay right, but every move of this ghost node updates cluster 0 that often.
C86: find_max_conn returns the smallest integer and an invalid block if the cluster fits into no other block; find_max_gain then subtracts a positive weight from the smallest integer (C86_no_target). Only an assertion rules this out.
C87: finish_cluster gives back the nodes from position _best_prefix_pos + 1 on, but _best_prefix_pos is already the position after the last node of the prefix. The node at this position stays marked as a node of the cluster, so it is never in any cluster and cannot be moved (C87_left_out). Its edges are left out of the connections of the cluster, and when an adjacent cluster moves, move_cluster changes these connections although the cluster has no such edge; they can become negative (C87_negative). The strategy is greedy-batch-prefix, which is not the default.
C87: grow_cluster compares _node_to_cluster[v], a NodeID, with kInvalidBlockID; with node IDs of 64 bits this is never true, so all clusters would be single nodes. The model has node IDs of 32 bits.
C88: compute_cluster_weight_limit starts with limit 0 and takes the minimum with the overloads for MIN_OVERLOAD, so the limit is always 0 (C88_min_overload). With this limit, or with ZERO, the greedy builder makes one empty cluster per node of an overloaded block and no node is in any cluster (C88_zero_limit).
C88: perform_parallel_round calls assign_feasible_target_block only if the target is the own block, but find_max_relative_gain returns kInvalidBlockID and never the own block. A picked cluster that fits into no other block is an index outside of block_weight_deltas (C88_fits_nowhere). If the branch were reached, the weight would still be added for the old value of to.
C88: if the search for a feasible target starts with kInvalidBlockID, it starts at block 0 and stops at the own block, so it misses the blocks after it (C88_assign_invalid).
C89: build_local_clusters does not tell the clusterer the partition (set_communities is not called), so labels can be used in several blocks. Then a cluster can have nodes in two overloaded blocks, although the balancer takes the block of its first node for the block of all its nodes, and edges to nodes with the same label in a block that is not overloaded are left out of the connections (C89_across_blocks). The strategy lp is not the default.
C89: on a process without nodes, build_local_clusters reads the last entry of an empty vector (cluster_to_move_set.back()); the model has no result for it.
C90: the hypothesis that clusters of a process lie in one block (ClusterMove.node) holds for the clusters of the greedy strategies (C87) but not for those of label propagation (C89).
C91: pick_sequential_candidates is called twice in perform_sequential_round, and the first result is thrown away. A candidate of a cluster that fits nowhere has the target kInvalidBlockID, which is not its own block, so reduce_candidates reads block_weight_deltas out of bounds instead of leaving it to assign_feasible_target_block.
C92: the call leaves the keys of the candidates at their actual gains, so the second call in the same round picks the same number of candidates; the first call is only a waste of time.
C93: with par_initial_rebalance_fraction 0 the first parallel round has no candidates, so its imbalance does not shrink and the balancer takes it for a stalemate (C93_zero).
