{"id": "C01", "title": "Static work split tiles the index range", "statement": "Splitting n items over p workers with compute_local_range gives contiguous ranges [from,to) that are pairwise disjoint, cover 0..n-1 exactly, come in worker order and differ in length by at most one; compute_local_range_rank returns exactly the worker whose range contains the item. Hence a deterministic_for loop executes its body exactly once per index, whatever the number of threads.", "quantifier": "every n >= 0, every number of workers p >= 1, every worker index, every item < n", "why_tests_cant": "n, p range over all 32/64 bit values; an off-by-one at n mod p boundaries would show only for particular pairs", "anchors": ["kaminpar-common/math.h: compute_local_range, compute_local_range_rank", "kaminpar-common/parallel/loops.h: deterministic_for"]}
{"id": "C02", "title": "Degree buckets partition all degrees", "statement": "Every degree belongs to exactly one bucket: lowest_degree_in_bucket(b) <= d < lowest_degree_in_bucket(b+1) holds iff degree_bucket(d)=b; the bucket index is monotone in the degree and always a valid index below the number of buckets.", "quantifier": "every degree d representable in a 32 bit NodeID", "why_tests_cant": "2^32 degrees with power-of-two boundaries; boundary 0 is a special case", "anchors": ["kaminpar-common/degree_buckets.h: degree_bucket, lowest_degree_in_bucket, kNumberOfDegreeBuckets", "kaminpar-common/math.h: floor_log2"]}
{"id": "C03", "title": "Round-robin distribution is a bijection", "statement": "distribute_round_robin(i, size, n) permutes the indices 0..n-1, i.e. no two positions are mapped to the same place.", "quantifier": "every n, every group size, every pair of indices", "why_tests_cant": "the collision only appears for n not divisible by size and specific indices", "anchors": ["kaminpar-common/math.h: distribute_round_robin"]}
{"id": "C04", "title": "Recursive bisection tree hands out every final block exactly once", "statement": "When the current partition has 2^l blocks and k final blocks are wanted, the numbers of final blocks reserved for the current blocks sum to k, each is floor(k/2^l) or ceil(k/2^l) and at least one if 2^l <= k, and the final-block ranges [first_sub_block(b), first_invalid_sub_block(b)) are contiguous, disjoint, in order and tile 0..k-1. Splitting one level deeper splits each range into the ranges of its two children.", "quantifier": "every k and every level l with 2^l <= k, every block of the level", "why_tests_cant": "k is arbitrary (non powers of two give uneven trees), and the code uses bit reversal tricks whose corner cases are sparse", "anchors": ["kaminpar-shm/partitioning/partition_utils.cc: compute_final_k, compute_first_sub_block, compute_first_invalid_sub_block", "kaminpar-common/math.h: split_integral, floor_log2, ceil_log2"]}
{"id": "C05", "title": "Variable length integers round-trip", "statement": "For every value, varint_decode(varint_encode(x)) returns x and consumes exactly the number of bytes written, which is varint_length(x) <= varint_max_length; the same for signed varints (zigzag) and for marked varints, which also return the mark. Decoding a concatenation of encodings returns the original sequence, independent of what bytes follow.", "quantifier": "every unsigned and signed integer of the type's width, every mark bit, every sequence of values, every suffix of bytes", "why_tests_cant": "2^64 values times arbitrary following bytes; continuation-bit boundaries are sparse", "anchors": ["kaminpar-common/graph_compression/varint.h: varint_length, varint_encode, varint_decode, signed_varint_*, marked_varint_*, zigzag_encode, zigzag_decode"]}
{"id": "C06", "title": "Graph compression is lossless", "statement": "Decoding the compressed neighbourhood of a node yields exactly the neighbours (with multiplicity) and, when stored, each neighbour's own edge weight, for any sorted neighbour list, whether or not interval encoding, high-degree splitting, StreamVByte encoding or edge weights are enabled; the degree is recovered too, and decoding does not depend on the bytes that follow the node's own encoding (StreamVByte additionally needs the 15 bytes of padding to exist).", "quantifier": "every graph, every node, every neighbour list, every combination of the compression options", "why_tests_cant": "infinitely many neighbour lists; interaction of intervals with gaps, part boundaries, and weights only misbehaves for particular shapes", "anchors": ["kaminpar-common/graph_compression/compressed_edges_builder.h: CompressedEdgesBuilder::add, add_node, add_edges", "kaminpar-common/graph_compression/compressed_neighborhoods.h: CompressedNeighborhoods::decode, decode_header, decode_edges"]}
{"id": "C07", "title": "StreamVByte coding round-trips", "statement": "Encoding a sequence of 32-bit integers with the StreamVByte encoder and decoding it with the matching gap kind returns the original sequence, for every length including lengths that are not multiples of four.", "quantifier": "every sequence of 32-bit values (every length) and every gap kind supported, with sortedness assumed only where the gap kind needs it", "why_tests_cant": "control bytes select among 256 shuffle patterns and the tail is special-cased; values at byte-length boundaries matter", "anchors": ["kaminpar-common/graph_compression/streamvbyte.h: StreamVByteEncoder, StreamVByteDecoder"]}
{"id": "C08", "title": "Parallel graph compression places chunks as the sequential one would", "statement": "With the ordered offset hand-off structure, each of the concurrently processed chunks receives as its offset exactly the sum of the sizes of all earlier chunks, for every interleaving of the workers, so the parallel result is byte-identical to the sequential one. No offset is handed out before all earlier chunks have announced their size.", "quantifier": "every number of workers, every number of chunks, every chunk size, every interleaving of the atomic steps", "why_tests_cant": "depends on scheduler interleavings and wrap-around of a circular buffer", "anchors": ["kaminpar-common/datastructures/concurrent_circular_vector.h: ConcurrentCircularVectorSpinlock, ConcurrentCircularVectorMutex, next, fetch_and_update", "kaminpar-shm/graphutils/parallel_compressed_graph_builder.h"]}
{"id": "C09", "title": "Binary heap returns elements in priority order", "statement": "After any sequence of push, pop, remove and change-priority operations the addressable binary heap represents exactly the map from IDs to keys that the sequence describes; peek returns an entry of best key; contains, key and size agree with that map; pop removes exactly the peeked entry.", "quantifier": "every operation history on every number of elements with every comparable key type", "why_tests_cant": "heap shape corruption shows only after particular histories", "anchors": ["kaminpar-common/datastructures/binary_heap.h: BinaryHeap, push, pop, remove, change_priority, sift_up, sift_down"]}
{"id": "C10", "title": "Sparse map and fast-reset array behave like a map that clears in time proportional to its use", "statement": "After any sequence of writes, increments and clears, reading a key returns the last value written since the last clear (default 0 otherwise), entries() enumerates each touched key exactly once with its current value, and after clear() the structure is indistinguishable from a fresh one.", "quantifier": "every history of operations, every capacity, every key in range", "why_tests_cant": "stale sparse/dense cross references only show after particular histories (the structure is deliberately used with uninitialised memory)", "anchors": ["kaminpar-common/datastructures/sparse_map.h: SparseMap", "kaminpar-common/datastructures/fast_reset_array.h: FastResetArray", "kaminpar-common/datastructures/fixed_size_sparse_map.h: FixedSizeSparseMap"]}
{"id": "C11", "title": "Compact hash map behaves like a map of counters", "statement": "The bit-packed open-addressing hash map used by gain caches represents, after any history of increase_by and decrease_by, exactly the map of current counters: get returns the accumulated value (0 for absent keys), an entry disappears when its counter reaches zero, for_each enumerates every positive counter exactly once; backward-shift deletion never loses or duplicates another key.", "quantifier": "every history that keeps the number of live keys below the capacity and values within the value bits; every power-of-two capacity; every key", "why_tests_cant": "probe-chain corruption after deletion needs specific collision patterns and wrap-around", "anchors": ["kaminpar-common/datastructures/compact_hash_map.h: CompactHashMap, increase_by, decrease_by, get, for_each"]}
{"id": "C12", "title": "Growing flat hash maps behave like maps", "statement": "The dynamically growing open-addressing maps used for delta partitions and ratings return for each key the last value assigned since the last clear, keep all entries when they grow, enumerate each live key exactly once and are empty after clear (timestamp based clearing never resurrects old entries).", "quantifier": "every history of accesses, growth steps and clears; every key", "why_tests_cant": "resurrection or loss needs particular collisions, growth and timestamp histories", "anchors": ["kaminpar-common/datastructures/dynamic_map.h: DynamicMapBase, DynamicFlatMap, DynamicRememberingFlatMap"]}
{"id": "C13", "title": "Marker reset is complete and cheap", "statement": "After any history of set and reset calls on the marker array, get(element, marker) is true iff the element was set for that marker since its last reset, including across counter wrap-around that triggers a full clear.", "quantifier": "every history of set/reset/size operations, every element, every marker slot", "why_tests_cant": "the wrap-around happens only after 2^w resets", "anchors": ["kaminpar-common/datastructures/marker.h: Marker"]}
{"id": "C14", "title": "Bit-compact arrays are arrays", "statement": "CompactStaticArray stores each value in a configurable number of bytes; reading index i returns the last value written to i, and writing index i never changes any other index; iterators visit the same values.", "quantifier": "every byte width 1..8, every size, every history of writes with values that fit the width", "why_tests_cant": "overlapping word accesses at the array end only show for particular widths and contents", "anchors": ["kaminpar-common/datastructures/compact_static_array.h: CompactStaticArray, read, write, min_representable"]}
{"id": "C15", "title": "Rank queries count set bits", "statement": "After update(), rank(i) of the ranked bit vector equals the number of set bits before position i, for every bit pattern.", "quantifier": "every bit vector length, every pattern, every position", "why_tests_cant": "word and block boundaries; all patterns cannot be enumerated", "anchors": ["kaminpar-common/datastructures/bitvector_rank.h: RankCombinedBitVector, update, rank"]}
{"id": "C16", "title": "Aligned prefix sums allocate disjoint, aligned slots", "statement": "aligned_prefix_sum lays out variable-sized entries so that each start is a multiple of the entry's own alignment, entries do not overlap, and all entries lie below the returned total, for the sequential algorithm and for the parallel algorithm with every number of workers.", "quantifier": "every list of (alignment, size) pairs with alignments dividing 8, every number of workers", "why_tests_cant": "overlap only shows for particular combinations of chunk borders and alignments", "anchors": ["kaminpar-common/parallel/aligned_prefix_sum.h: aligned_prefix_sum_seq, aligned_prefix_sum", "kaminpar-shm/refinement/gains/compact_hashing_gain_cache.h: initialize"]}
{"id": "C17", "title": "Block weights always equal the weight of the assigned nodes", "statement": "Whenever no move is in flight, the reported weight of each block equals the sum of the weights of the nodes assigned to it, for any history of block assignments and moves performed concurrently by any number of threads (each node moved by at most one thread at a time); at every intermediate point the sum over blocks is conserved up to the moves in flight.", "quantifier": "every graph, every initial partition, every set of threads, every interleaving of their atomic steps", "why_tests_cant": "interleavings of atomic read-modify-write steps cannot be enumerated by tests", "anchors": ["kaminpar-shm/datastructures/partitioned_graph.h: PartitionedGraph::set_block, move, move_block_weight, init_block_weights_par, init_block_weights_seq"]}
{"id": "C18", "title": "Checked moves never overload a block", "statement": "A move with a weight limit succeeds only if the target's weight stays within the limit, whatever other threads do at the same time: no interleaving of limited moves ever brings a block above max(its weight at the start, its limit). A rejected move changes nothing.", "quantifier": "every number of threads, every interleaving, every limit, every node weight", "why_tests_cant": "check-then-act races appear only in rare schedules", "anchors": ["kaminpar-shm/datastructures/partitioned_graph.h: PartitionedGraph::move, move_block_weight", "kaminpar-shm/refinement/lp/lp_refiner.cc: move_cluster_weight", "kaminpar-shm/refinement/balancer/greedy_balancer.cc: move_node_if_possible"]}
{"id": "C19", "title": "The reported edge cut is the true cut", "statement": "For an undirected graph stored with both directions and symmetric weights, the returned edge cut equals the total weight of undirected edges whose endpoints are in different blocks (each counted once); the intermediate sum is even, is zero when all nodes share a block, and does not depend on how the parallel reduction is split.", "quantifier": "every undirected weighted graph, every partition, every reduction order", "why_tests_cant": "all graphs and partitions", "anchors": ["kaminpar-shm/metrics.h: edge_cut, edge_cut_seq"]}
{"id": "C20", "title": "Balance metrics agree with the definition of a balanced partition", "statement": "is_feasible / is_balanced report true iff every block weight is within its maximum, total_overload is zero in exactly those cases and otherwise equals the sum of excesses, and the maximum block weights derived from epsilon always leave room for the whole graph: their sum is at least the total node weight and each is at least the weight of a perfectly balanced block.", "quantifier": "every graph, number of blocks, epsilon >= 0, partition", "why_tests_cant": "rounding in ceil(total/k) and (1+eps) only bites for particular values", "anchors": ["kaminpar-shm/metrics.h: total_overload, is_balanced, is_feasible", "kaminpar-shm/kaminpar.cc: PartitionContext::setup", "kaminpar-shm/kaminpar.h: PartitionContext"]}
{"id": "C21", "title": "Delta partitions are a transparent overlay", "statement": "A thread-local delta partition reports for each node the block after the local moves and for each block the weight after the local moves, without changing the shared partition; clearing it restores the shared view; applying its moves to the shared partition makes the shared partition equal to what the delta reported.", "quantifier": "every history of local moves, clears, on every graph and partition", "why_tests_cant": "history dependent; repeated moves of the same node are rare in tests", "anchors": ["kaminpar-shm/datastructures/delta_partitioned_graph.h: DeltaPartitionedGraph::set_block, block, block_weight, for_each, clear"]}
{"id": "C22", "title": "Degree-bucket reordering is a permutation and returns the same graph", "statement": "The node permutation computed in parallel is a bijection of the nodes, orders nodes by degree bucket with isolated nodes last, is stable inside a bucket, and does not depend on the number of threads; the permuted graph has an edge (new(u),new(v)) of weight w for each edge (u,v) of weight w of the input, with equal multiplicity, and the node weights move along.", "quantifier": "every graph, every number of threads", "why_tests_cant": "parallel counting sort: wrong offsets only show for particular splits", "anchors": ["kaminpar-shm/graphutils/permutator.h: compute_node_permutation_by_generic_buckets, build_permuted_graph", "kaminpar-shm/graphutils/permutator.cc: rearrange_by_degree_buckets, compute_node_permutation_by_degree_buckets"]}
{"id": "C23", "title": "Removing and re-adding isolated nodes loses nothing", "statement": "Temporarily removing the isolated nodes keeps all other nodes, their adjacency and weights, reduces the total node weight by exactly the weight of the removed nodes, and re-integrating them restores the node count, weights, totals and bucket sizes exactly.", "quantifier": "every graph whose nodes are sorted with isolated nodes last, every number of isolated nodes", "why_tests_cant": "bookkeeping across a pair of inverse operations for every graph", "anchors": ["kaminpar-shm/datastructures/csr_graph.h: remove_isolated_nodes, integrate_isolated_nodes", "kaminpar-shm/graphutils/permutator.cc: assign_isolated_nodes"]}
{"id": "C24", "title": "Isolated nodes are distributed within the balance constraint", "statement": "Assigning the removed isolated nodes to blocks gives every node a block below k, leaves the blocks of other nodes unchanged, and never pushes a block above its maximum weight as long as the total weight fits.", "quantifier": "every graph, every partition of the non-isolated part, every block limit", "why_tests_cant": "greedy packing fails only for particular weight sequences", "anchors": ["kaminpar-shm/graphutils/permutator.cc: assign_isolated_nodes"]}
{"id": "C25", "title": "Partition is reported in the caller's node IDs", "statement": "After compute_partition, entry u of the output array is the block of the caller's node u (not of the internal reordered node), all entries are below k, every node has an entry, and the returned value equals the edge cut of exactly this partition on the caller's graph.", "quantifier": "every input graph, every node ordering, every outcome of the internal partitioner", "why_tests_cant": "depends on the composition of reordering, isolated-node removal and back-mapping for every graph", "anchors": ["kaminpar-shm/kaminpar.cc: KaMinPar::compute_partition", "kaminpar-shm/datastructures/csr_graph.h: map_original_node, set_permutation"]}
{"id": "C26", "title": "Graph accessors agree with the input arrays", "statement": "Building a graph from CSR arrays gives n, m, degrees, neighbours and weights equal to the arrays, total and maximum weights equal to the sums and maxima, and max_degree the largest degree; a weighted graph answers node and edge weights from the arrays.", "quantifier": "every pair of valid CSR arrays with optional weights", "why_tests_cant": "all graphs; the weighted/unweighted decision is made from totals", "anchors": ["kaminpar-shm/datastructures/csr_graph.h: CSRGraph", "kaminpar-shm/datastructures/csr_graph.cc: CSRGraph::CSRGraph, init_degree_buckets"]}
{"id": "C27", "title": "Graph validation accepts exactly well-formed graphs", "statement": "validate_graph returns true iff the node array is a monotone offset array, all targets are valid, there are no self loops, and each edge has a matching reverse edge of the same weight.", "quantifier": "every CSR array pair", "why_tests_cant": "all inputs, including malformed ones", "anchors": ["kaminpar-shm/datastructures/csr_graph.cc: debug::validate_graph"]}
{"id": "C28", "title": "Contraction preserves weights and cuts", "statement": "Contracting a clustering gives a coarse graph whose node weights sum to the fine total, whose coarse node weight is the sum over its cluster, and whose coarse edge weight between two coarse nodes is the sum of fine edge weights between the two clusters; there are no self loops and no parallel edges; and every partition of the coarse graph, projected to the fine graph, has the same edge cut and the same block weights.", "quantifier": "every graph, every clustering, every way the parallel loops are scheduled and every buffer flush order", "why_tests_cant": "all graphs, clusterings and schedules", "anchors": ["kaminpar-shm/coarsening/contraction/buffered_cluster_contraction.cc: contract_clustering_buffered", "kaminpar-shm/coarsening/contraction/unbuffered_cluster_contraction.cc: contract_clustering_unbuffered", "kaminpar-shm/coarsening/contraction/cluster_contraction_preprocessing.cc"]}
{"id": "C29", "title": "Cluster renumbering is dense and faithful", "statement": "The mapping from fine to coarse nodes computed in the preprocessing step uses each coarse ID in 0..c_n-1, two nodes get the same coarse ID iff they are in the same cluster, and the per-coarse-node buckets list every fine node exactly once, in the bucket of its coarse node, for every interleaving of the atomic bucket insertions.", "quantifier": "every clustering (any labels below n), every interleaving", "why_tests_cant": "parallel prefix sums and atomic decrements", "anchors": ["kaminpar-shm/coarsening/contraction/cluster_contraction_preprocessing.cc: compute_mapping, fill_leader_mapping, fill_cluster_buckets"]}
{"id": "C30", "title": "Block-induced subgraph extraction is exact", "statement": "Extracting one subgraph per block yields, for every block, the nodes of that block once each with their weights, and exactly the edges with both endpoints in the block, in local IDs; subgraphs stored in the shared memory do not overlap; copying subgraph partitions back assigns every node of the original graph the block offset of its own subgraph plus its local block.", "quantifier": "every graph, every partition, every number of blocks, every schedule of the parallel loops", "why_tests_cant": "all graphs and partitions; shared memory layout errors depend on sizes", "anchors": ["kaminpar-shm/graphutils/subgraph_extractor.cc: extract_subgraphs, extract_subgraphs_sequential, lazy_extract_subgraphs_preprocessing, extract_subgraph, copy_subgraph_partitions"]}
{"id": "C31", "title": "Recursive bipartitioning of a subgraph labels every node with a valid final block", "statement": "Extending a block into its final sub-blocks by recursive bisection writes for each node of the block a label inside the block's reserved final range, and two nodes share a label only if all bisections on the path put them on the same side.", "quantifier": "every graph, every k, every outcome of each bisection", "why_tests_cant": "recursion over arbitrary uneven trees", "anchors": ["kaminpar-shm/partitioning/helper.cc: extend_partition_recursive, create_twoway_context"]}
{"id": "C32", "title": "Gain cache always equals the true connectivity", "statement": "After initialisation and any history of node moves, performed concurrently by any number of threads, whenever no move is in flight the cache's connection of a node to a block equals the total weight of its edges into that block, and the gain equals the difference of the connections; a node is reported as border node iff it has a neighbour outside its block.", "quantifier": "every graph, every initial partition, every history and every interleaving of the atomic cache updates", "why_tests_cant": "stale entries show up only after specific histories and schedules", "anchors": ["kaminpar-shm/refinement/gains/dense_gain_cache.h: DenseGainCache::move, conn, gain, is_border_node", "kaminpar-shm/refinement/gains/on_the_fly_gain_cache.h"]}
{"id": "C33", "title": "Gain equals the change of the cut", "statement": "Moving one node to another block changes the edge cut by exactly minus the reported gain; executing any sequence of moves changes the cut by minus the sum of the gains reported just before each move.", "quantifier": "every symmetric graph, every partition, every sequence of moves", "why_tests_cant": "all graphs and histories", "anchors": ["kaminpar-shm/refinement/gains/dense_gain_cache.h: gain", "kaminpar-shm/metrics.h: edge_cut"]}
{"id": "C34", "title": "Thread-local delta gain caches agree with the delta partition", "statement": "The delta gain cache layered over the global gain cache reports, after any sequence of local moves, the connection values and gains that a freshly computed cache for the delta partition would report, and the global cache is unchanged; after clear it reports the global values.", "quantifier": "every graph, every global partition, every sequence of local moves", "why_tests_cant": "history dependent", "anchors": ["kaminpar-shm/refinement/gains/delta_gain_caches.h: GenericDeltaGainCache::move, conn, gain, clear"]}
{"id": "C35", "title": "Sparse gain cache is exact with compressed per-node tables", "statement": "The sparse gain cache that stores low-degree nodes in small bit-packed hash tables reports the same connections and gains as the dense cache after any history of moves; each node's table region is disjoint from the others and never becomes too small.", "quantifier": "every degree-bucket sorted graph, every k >= 2, every history of moves, weighted degrees fitting the value bits", "why_tests_cant": "needs particular degree distributions, collisions and weights", "anchors": ["kaminpar-shm/refinement/gains/sparse_gain_cache.h: SparseGainCache::initialize, move, conn, gains"]}
{"id": "C36", "title": "FM local search reports its true improvement and keeps the partition balanced", "statement": "A localized FM search (run by one worker) that returns gain g leaves the shared partition with the edge cut reduced by exactly g >= 0; no block exceeds max(its former weight, its maximum weight); nodes it moved only tentatively are back in their old block.", "quantifier": "every graph, every partition, every seed set, every priority-queue tie-breaking, every stopping point", "why_tests_cant": "search histories are unbounded", "anchors": ["kaminpar-shm/refinement/fm/fm_refiner.cc: LocalizedFMRefiner::run_batch", "kaminpar-shm/refinement/fm/stopping_policies.h"]}
{"id": "C37", "title": "Concurrent FM searches do not overload blocks", "statement": "When several FM workers run at the same time, no block's weight ever exceeds its maximum if it did not before.", "quantifier": "every number of workers, every interleaving", "why_tests_cant": "check-then-act races", "anchors": ["kaminpar-shm/refinement/fm/fm_refiner.cc: LocalizedFMRefiner::run_batch"]}
{"id": "C38", "title": "FM workers never own the same node", "statement": "At any time a node is owned by at most one FM worker; a node moved globally in a round is never acquired again in that round; each border node is handed out as a seed at most once per round.", "quantifier": "every number of workers, every interleaving of their lock/unlock/poll steps", "why_tests_cant": "races on the ownership array", "anchors": ["kaminpar-shm/refinement/fm/node_tracker.h: NodeTracker", "kaminpar-shm/refinement/fm/border_nodes.h: BorderNodes::poll"]}
{"id": "C39", "title": "Label propagation refinement never makes a feasible partition infeasible", "statement": "Label propagation refinement keeps every block within max(its former weight, its maximum weight) for every schedule, keeps the reported block weights exact, and never moves a node to a block it has no edge to.", "quantifier": "every graph, partition, number of threads, node order, tie-breaking choice", "why_tests_cant": "schedules and tie-breaking", "anchors": ["kaminpar-shm/refinement/lp/lp_refiner.cc: LPRefinerImpl", "kaminpar-shm/label_propagation.h: handle_node, find_best_cluster, try_node_move"]}
{"id": "C40", "title": "Clustering respects the cluster weight limit", "statement": "The label-propagation clustering used for coarsening yields clusters whose weight does not exceed the maximum cluster weight (unless a single node already does), tracks cluster weights exactly and counts the non-empty clusters exactly.", "quantifier": "every graph, every limit, every schedule of the workers", "why_tests_cant": "check-then-act races on cluster weights", "anchors": ["kaminpar-shm/label_propagation.h: OwnedRelaxedClusterWeightVector::move_cluster_weight, try_node_move", "kaminpar-shm/coarsening/clustering/lp_clusterer.cc"]}
{"id": "C41", "title": "The balancer only improves balance and reports its outcome truthfully", "statement": "The greedy balancer never moves a node into a block that would then exceed its maximum weight, the total overload never increases, and it returns true iff no block is overloaded afterwards.", "quantifier": "every graph, partition, weight limits, schedule of the per-block workers", "why_tests_cant": "schedules and random choices", "anchors": ["kaminpar-shm/refinement/balancer/greedy_balancer.cc: GreedyBalancerImpl::perform_round, refine"]}
{"id": "C42", "title": "Jet refinement never returns a worse cut", "statement": "Whatever moves the Jet refiner and its balancer make, the cut of the resulting partition is at most the cut of the input partition and is the best among all partitions seen at the ends of iterations; the gain cache is consistent when the next round starts.", "quantifier": "every graph, partition, number of rounds and iterations, every outcome of the move selection and balancing", "why_tests_cant": "iteration histories", "anchors": ["kaminpar-shm/refinement/jet/jet_refiner.cc: JetRefiner::refine"]}
{"id": "C43", "title": "Queue and stack containers keep order", "statement": "The bounded FIFO queue used by breadth-first searches returns the elements in insertion order, size and empty agree with the history, and head/tail return the oldest and newest element.", "quantifier": "every history of push/pop/clear within the capacity", "why_tests_cant": "history dependent", "anchors": ["kaminpar-common/datastructures/queue.h: Queue"]}
{"id": "C44", "title": "Coarsening plan terminates with the intended number of blocks", "statement": "In deep multilevel partitioning the number of blocks per level only grows, always doubles or reaches k, stays between 2 and k, and after finitely many extension steps equals k; compute_k_for_n is monotone in n.", "quantifier": "every n, k >= 2, contraction limit C >= 1", "why_tests_cant": "all parameter combinations", "anchors": ["kaminpar-shm/partitioning/partition_utils.cc: compute_k_for_n, compute_next_k, compute_num_copies"]}
{"id": "C45", "title": "Grid communication routes every message to its addressee", "statement": "The two-hop grid all-to-all exchange delivers exactly the messages addressed to each rank, each once and tagged with its true sender, for every number of ranks, including numbers that do not fill the grid.", "quantifier": "every number of ranks, every message matrix", "why_tests_cant": "ranks counts beyond what tests run", "anchors": ["kaminpar-mpi/grid_topology.h: GridTopology", "kaminpar-mpi/grid_alltoall.h"]}
{"id": "C46", "title": "64-bit StreamVByte coding round-trips", "statement": "Encoding a sequence of 64-bit integers with the 64-bit StreamVByte encoder and decoding it returns the original sequence for every length.", "quantifier": "every sequence of 64-bit values", "why_tests_cant": "infinitely many sequences; only some byte widths misbehave", "anchors": ["kaminpar-common/graph_compression/streamvbyte.h: StreamVByteEncoder, StreamVByteDecoder (64-bit)"]}
{"id": "C47", "title": "Parallel reductions equal the sequential result", "statement": "The parallel sum, maximum and maximum-difference reductions and the parallel prefix sum return exactly what the sequential loop returns.", "quantifier": "every array, every splitting of the index range into tasks, every order of joining the partial results", "why_tests_cant": "the scheduler splits and joins in unboundedly many ways", "anchors": ["kaminpar-common/parallel/algorithm.h: accumulate, max_element, max_difference, prefix_sum"]}
{"id": "C48", "title": "Reordering edges for compression keeps the graph", "statement": "Reordering the edges of an uncompressed graph (as done before partitioning) keeps every neighbourhood with its edge weights, and afterwards the neighbours of each node are reported in the same order as by the compressed version of the same graph.", "quantifier": "every graph, weighted or not, every result of the unstable sort, every order in which nodes are processed", "why_tests_cant": "in-place permutation of two arrays with cycles of any shape, intervals of any position and length", "anchors": ["kaminpar-shm/graphutils/permutator.cc: apply_permutation, sort_by_compression, reorder_edges_by_compression"]}
{"id": "C49", "title": "Binary-tree reduction across ranks", "statement": "The binary-tree reduction across MPI ranks finishes on every rank after a bounded number of steps without a deadlock, uses the buffer of every rank exactly once, returns the combined value on rank 0 and nothing elsewhere, and leaves no message behind; with addition it returns the sum over all ranks.", "quantifier": "every number of ranks (also not a power of two), all buffers and combiners, every interleaving of the ranks, with buffered and with synchronous sends", "why_tests_cant": "numbers of ranks beyond what tests run; message schedules", "anchors": ["kaminpar-mpi/binary_reduction_tree.h: perform_binary_reduction"]}
{"id": "C50", "title": "Distributed node balancer keeps the ranks consistent and does not overload blocks", "statement": "After every sequence of rounds of the distributed node balancer all ranks agree on the blocks of the nodes they know, owned or ghost, and on all block weights, and the weights are exact. A sequential round moves only proposed nodes of overloaded blocks, never makes a block heavier than both its limit and its old weight, and reduces the total overload if there is a candidate and every candidate fits on its own; a parallel round that accepts only balanced moves never pushes a block over its limit.", "quantifier": "every number of ranks, every distribution and partition, all proposals, gains, unstable sorts and dice rolls, every message schedule of the reduction", "why_tests_cant": "distributed states and reduction trees of any size", "anchors": ["kaminpar-dist/refinement/balancer/node_balancer.cc: NodeBalancer::perform_sequential_round, perform_parallel_round, perform_move", "kaminpar-dist/refinement/balancer/reductions.h: reduce_candidates", "kaminpar-dist/datastructures/distributed_partitioned_graph.h: set_block"]}
{"id": "C51", "title": "All-to-all exchanges deliver every message under every schedule", "statement": "Every implementation of the sparse all-to-all exchange calls the receiver of each rank exactly once for each rank, with exactly the messages that rank has for it, in their order. The direct exchange never deadlocks and always ends with no message left, also when several exchanges follow each other without a barrier. The variant that returns the buffers returns them in the order of the ranks, and the replacement of MPI_Alltoallv leaves the same receive buffers as MPI_Alltoallv.", "quantifier": "every number of ranks, all messages, every interleaving of the ranks, every choice of MPI which messages are buffered, every sequence of exchanges", "why_tests_cant": "message schedules and numbers of ranks beyond what tests run", "anchors": ["kaminpar-mpi/alltoall.h: sparse_alltoall_complete, sparse_alltoall_alltoallv", "kaminpar-mpi/sparse_alltoall.h: sparse_alltoall, sparse_alltoall_get, sparse_alltoallv"]}
{"id": "C52", "title": "Doubling allreduce adds up the buffers of all ranks", "statement": "On a power of two of ranks, the sparse allreduce by recursive doubling ends on every rank without a deadlock, with each reduced entry equal to the sum of the entries of all ranks and every other entry unchanged.", "quantifier": "every power of two of ranks, all buffers, every interleaving of the ranks, every choice of MPI which messages are buffered", "why_tests_cant": "message schedules and numbers of ranks beyond what tests run", "anchors": ["kaminpar-mpi/sparse_allreduce.h: inplace_sparse_allreduce (doubling_allreduce_tag)"]}
{"id": "C53", "title": "2-way FM refinement never worsens the cut or the overload", "statement": "Refining a bipartition with the 2-way FM refiner ends with a bipartition whose block weights are exact, whose cut is at most the cut before, and whose overload (the weight above the limits of the blocks) is at most the overload before. The partition changes only if the cut becomes strictly smaller, and the refiner reports an improvement exactly then. During a round each node moves at most once, the next node is one that makes the cut smallest among the candidates, and an overloaded block gives up a node first.", "quantifier": "all graphs, all bipartitions, balanced or not, all random choices, orders, tie-breaks and stopping rules, all numbers of rounds", "why_tests_cant": "the queues depend on the random order and on the whole history of moves; rollback only shows in rare sequences", "anchors": ["kaminpar-shm/initial_partitioning/initial_fm_refiner.cc: InitialFMRefiner::refine, round, init_pq, insert_node", "kaminpar-shm/initial_partitioning/initial_fm_refiner.h"]}
{"id": "C54", "title": "Hierarchy for initial bipartitioning is faithful", "statement": "Coarsening for the initial bipartition never runs into undefined behaviour, and every level is the contraction of the next finer graph: all nodes are mapped, weights of nodes and of parallel edges are added up, edges inside a cluster disappear. A node of a coarse graph is a single node or a connected set of nodes within the weight limit. A bipartition that is found on the coarsest graph has the same cut and the same block weights when it is projected to the input graph.", "quantifier": "all graphs with node weights that fit into the packed clustering entry and positive edge weights, all random orders and coins, all numbers of coarsening calls, all contents left behind by an earlier use", "why_tests_cant": "the clustering of the next level is computed while the current one is contracted; which updates interleave depends on the random order and the shape of the clusters", "anchors": ["kaminpar-shm/initial_partitioning/initial_coarsener.cc: InitialCoarsener::coarsen, perform_label_propagation, contract_current_clustering, pick_cluster, handle_node", "kaminpar-shm/initial_partitioning/initial_coarsener.h", "kaminpar-shm/initial_partitioning/sequential_graph_hierarchy.cc"]}
{"id": "C55", "title": "First bipartitions are complete and exact", "statement": "Every algorithm for a first bipartition (random, breadth first search with each of the selection strategies, greedy graph growing) ends, accesses its queues and heap only within bounds, puts every node into exactly one of the two blocks and reports exact block weights. Breadth first search is within the limits if they leave room for one more node; random is at most half a node above the perfectly balanced weights; greedy graph growing stops with the node with which the second block reaches its perfectly balanced weight, and picks the nodes that have most of their edges into that block.", "quantifier": "all graphs (also disconnected ones), all weights and limits, all random choices, all contents that an earlier use left in the reused memory", "why_tests_cant": "disconnected graphs, ties and random restarts make for unboundedly many courses of the searches", "anchors": ["kaminpar-shm/initial_partitioning/initial_bfs_bipartitioner.cc", "kaminpar-shm/initial_partitioning/initial_ggg_bipartitioner.cc", "kaminpar-shm/initial_partitioning/initial_random_bipartitioner.cc", "kaminpar-shm/initial_partitioning/initial_flat_bipartitioner.h"]}
{"id": "C56", "title": "Seed nodes are far apart", "statement": "A search for seed nodes returns two existing nodes such that the second one is furthest away from the first one (or cannot be reached from it), and no start node that was tried has a node further away.", "quantifier": "all graphs, connected or not, all start nodes and all numbers of attempts", "why_tests_cant": "distances are a property of all paths of the graph", "anchors": ["kaminpar-shm/initial_partitioning/seed_node_utils.cc: find_far_away_nodes, find_furthest_away_node"]}
{"id": "C57", "title": "Multilevel bipartitioning returns the best bipartition it has seen", "statement": "Computing a bipartition of a graph ends without undefined behaviour and returns a complete bipartition with exact block weights. It is at least as good as every bipartition tried on the coarsest graph: if one of them is feasible, the result is feasible and cuts no more than it; if none is feasible, the result cuts no more than any of them. The pool runs every algorithm at least as often as demanded and returns the best result (feasibility first, then cut, then imbalance).", "quantifier": "all graphs, all configurations of the pool and of coarsening, all random choices, all decisions of the adaptive selection, all contents left behind by earlier bipartitions", "why_tests_cant": "coarsening, the portfolio, swapping of reused arrays and refinement on every level interact; a stale array or a wrong comparison shows up only for some sequences of results", "anchors": ["kaminpar-shm/initial_partitioning/initial_pool_bipartitioner.cc: InitialPoolBipartitioner::bipartition, run_bipartitioner", "kaminpar-shm/initial_partitioning/initial_multilevel_bipartitioner.cc: InitialMultilevelBipartitioner::partition, coarsen, uncoarsen", "kaminpar-shm/initial_partitioning/initial_refiner.cc"]}
{"id": "C58", "title": "Intermediate balance constraints follow the final ones and can be met", "statement": "While a graph is partitioned into fewer than k blocks, the limit of a block is the sum of the caller's limits of the final blocks it will be split into (explicit limits), or at least its share of the total weight (limits from an imbalance); the limits for k blocks of the input graph are the caller's. The limits on smaller graphs and for bisecting a block are defined, are at least the unrelaxed ones, and there always is a partition that respects them.", "quantifier": "all k < 2^31, all block limits or imbalances, all levels, all node weights up to a total of 2^49, all removals of isolated nodes, every rounding to double precision, every result of std::pow", "why_tests_cant": "limits are computed by block arithmetic and rounded floating point; a limit that is one too small or belongs to the wrong block makes some inputs infeasible without any visible failure", "anchors": ["kaminpar-shm/partitioning/helper.cc: create_kway_context, create_twoway_context", "kaminpar-shm/kaminpar.h: PartitionContext::infer_epsilon, total_max_block_weights, total_unrelaxed_max_block_weights", "kaminpar-shm/kaminpar.cc: PartitionContext::setup"]}
{"id": "C59", "title": "Every partitioning scheme returns a partition of the input into exactly k blocks", "statement": "Deep multilevel, direct k-way and recursive bipartitioning end for every graph with positive weights; the result assigns every node of the input graph to one of exactly k blocks, although intermediate partitions have fewer blocks, are computed on several copies of a graph and are extended level by level. The last step of the deep and the direct scheme is a refinement with the caller's limits. The best copy is a feasible one if there is one, and has the smallest cut among those. No store leaves the memory for extracted subgraphs. Recursive bipartitioning throws exactly if k is not a power of two.", "quantifier": "all graphs, all 2 <= k < 2^31, all contraction limits, thread numbers and modes of initial partitioning, all coarseners, bipartitioners and refiners that keep their contracts, all schedules of the extractions", "why_tests_cant": "the number of blocks, the sizes of the shared memory and the number of copies depend on the sizes of all levels; only some combinations of contraction limit, k and coarsening rate reach a given branch", "anchors": ["kaminpar-shm/partitioning/deep/deep_multilevel.cc: DeepMultilevelPartitioner", "kaminpar-shm/partitioning/deep/async_initial_partitioning.cc: AsyncInitialPartitioner", "kaminpar-shm/partitioning/deep/sync_initial_partitioning.cc: SyncInitialPartitioner", "kaminpar-shm/partitioning/kway/kway_multilevel.cc: KWayMultilevelPartitioner", "kaminpar-shm/partitioning/rb/rb_multilevel.cc: RBMultilevelPartitioner", "kaminpar-shm/partitioning/helper.h: select_best", "kaminpar-shm/partitioning/helper.cc: extend_partition"]}
{"id": "C60", "title": "Graph and partition files are read as written", "statement": "Reading a METIS file, with arbitrary comments and spaces, with or without node and edge weights, yields the graph it describes: the number of nodes and edges, every node weight, and every neighbourhood with edge weights in the order of the file; the same graph reaches the compressing reader. Writing a graph and reading it again yields the same graph. Partitions, node mappings and block sizes survive writing and reading. Malformed files do not cause undefined behaviour.", "quantifier": "all byte sequences that follow the format, all graphs, partitions and numbers of blocks, all widths of the ID and weight types up to 64 bits, debug and release builds, all page sizes, all schedules of the constructor of the graph", "why_tests_cant": "the files of the test suite are a few small graphs; whether the parser stays inside the mapped memory depends on the length of the file modulo the page size, and whether weights are kept depends on their total", "anchors": ["apps/io/file_toker.h: MappedFileToker", "apps/io/shm_metis_parser.cc: csr_read, compress_read, write", "apps/io/shm_io.cc: partition::write, partition::read, partition::write_block_sizes, partition::read_block_sizes, remapping::write"]}
{"id": "C61", "title": "ParHIP files are read as written", "statement": "A graph that was written to a ParHIP file is read back as the same graph by every build of the program whose ID and weight types are at least as wide as those of the build that wrote it; every other build exits with an error. If the nodes are renumbered by degree while the file is read, the result is the graph of the file with its nodes renamed. Files that are too short are rejected.", "quantifier": "all graphs with positive weights, all combinations of 32-bit and 64-bit types of the writing and the reading build, all page sizes, all schedules of the parallel loops", "why_tests_cant": "sixteen by sixteen builds would have to be combined, and the offsets in the file overflow only for graphs with more than a billion edges", "anchors": ["apps/io/shm_parhip_parser.cc: csr_read, csr_read_deg_buckets, write, ParHIPHeader", "apps/io/binary_util.h: BinaryReader"]}
{"id": "C62", "title": "Compressed graph files are read as written and recognised", "statement": "A compressed graph that was written to a file is read back bit by bit: offsets, compressed neighbourhoods, node weights and all numbers stored besides. A program that was built with different type widths or compression options exits with an error instead of decoding the file. The file is recognised as a compressed graph, and METIS files and ParHIP files are never taken for one.", "quantifier": "all compressed graphs, all combinations of type widths and compression options of the writer and the reader, all files of bytes", "why_tests_cant": "there are 2^7 combinations of flags on each side and three numeric options; recognition is a statement about all files", "anchors": ["apps/io/shm_compressed_graph_binary.cc: write, read, verify_header, is_compressed"]}
{"id": "C63", "title": "The input validator accepts exactly the undirected graphs without repeated edges", "statement": "If the input graph is validated, the program continues exactly if every edge leads to a node and has a reverse edge with the same weight, and no edge is repeated; otherwise it ends with an error message. It never reads memory outside of the graph.", "quantifier": "all graphs, all orders of the neighbourhoods, all results of the unstable sorting of edges with equal targets, all schedules of the parallel loops", "why_tests_cant": "which graphs are accepted is a statement about all graphs; the order of the edges in the input matters", "anchors": ["apps/io/shm_input_validator.cc: validate_undirected_graph, binary_find"]}
{"id": "C64", "title": "The distributed graph in memory is the graph that the processes passed", "statement": "After all processes passed their part of a graph (ranges of nodes, neighbours with global IDs, weights), each process has for its nodes the neighbours and weights that it passed, knows each foreign neighbour under exactly one local ID together with the process that owns it, and the conversions between local and global IDs are inverse to each other.", "quantifier": "all distributions of nodes to processes (also processes without nodes), all graphs, all orders in which the threads process the edges and the entries of the hash table", "why_tests_cant": "local IDs of foreign nodes depend on the schedule of the threads; every schedule must give a consistent numbering", "anchors": ["kaminpar-dist/dkaminpar.cc: dKaMinPar::import_graph", "kaminpar-dist/datastructures/ghost_node_mapper.h: GhostNodeMapper", "kaminpar-dist/datastructures/distributed_csr_graph.h: DistributedCSRGraph"]}
{"id": "C65", "title": "Messages along cut edges reach their destinations, and ghost nodes get the values of their owners", "statement": "When nodes with neighbours on other processes send messages, each process receives, from each process, exactly the messages that were built for it: one for each cut edge (or one for each node and neighbouring process) that passes the filter, none lost, duplicated or invented. After a synchronization, every copy of a foreign node has the weight (or block) that the owner of the node has, and the process's own nodes are unchanged.", "quantifier": "all undirected graphs and distributions, all ranges, node orders, filters and messages, all numbers of threads and interleavings on all processes, all orders in which received messages are handled", "why_tests_cant": "the buffers are uninitialized and filled concurrently through counters of threads; a wrong slot shows only for some schedules and sizes", "anchors": ["kaminpar-dist/graphutils/communication.h: sparse_alltoall_interface_to_ghost_custom_range, sparse_alltoall_interface_to_pe_custom_range, inclusive_col_prefix_sum", "kaminpar-dist/graphutils/synchronization.h: synchronize_ghost_node_weights", "kaminpar-dist/graphutils/synchronization.cc: synchronize_ghost_node_block_ids", "kaminpar-dist/dkaminpar.cc: dKaMinPar::import_graph"]}
{"id": "C66", "title": "The metrics of a distributed partition are those of the whole graph", "statement": "On every process, the edge cut of a distributed partition is the weight of the edges of the whole graph between different blocks, each counted once; the weight of a block is the weight of all nodes in it, whichever process owns them; the partition is reported feasible if and only if no block is heavier than its limit. The partitioner returns this edge cut.", "quantifier": "all undirected graphs with non-negative weights, distributions, partitions, numbers of threads and splits of the work between them", "why_tests_cant": "an edge between processes is seen twice and its far end only through a copy; sums are made of partial sums of threads and processes whose split differs from run to run", "anchors": ["kaminpar-dist/metrics.cc: local_edge_cut, edge_cut, num_imbalanced_blocks, is_feasible, imbalance_l1", "kaminpar-dist/datastructures/distributed_partitioned_graph.cc: init_block_weights", "kaminpar-dist/datastructures/distributed_csr_graph.cc: init_total_weights", "kaminpar-dist/dkaminpar.cc: dKaMinPar::compute_partition"]}
{"id": "C67", "title": "Distributed Jet refinement keeps all processes consistent and never returns a worse partition", "statement": "If all processes agree on a partition and on its block weights, they still do after an iteration of distributed Jet refinement, whatever their threads do and whichever moves the gain calculator proposes: the moved nodes are exactly the candidates with non-negative expected gain, and no node is moved in two iterations in a row. After a round, all processes hold the same one of the partitions seen in the round; none of these is closer to the limits, and if some satisfy the limits, none of those has a smaller cut.", "quantifier": "all undirected graphs, distributions, partitions, proposed moves, numbers of processes and threads, schedules and numbers of iterations", "why_tests_cant": "the processes move nodes at the same time, see each other's nodes only through copies and each keep their own block weights and snapshots; an inconsistency shows only on graphs where the copies differ", "anchors": ["kaminpar-dist/refinement/jet/jet_refiner.cc: find_moves, synchronize_ghost_node_move_candidates, filter_bad_moves, move_locked_nodes, synchronize_ghost_node_labels, apply_block_weight_deltas, refine", "kaminpar-dist/refinement/snapshooter.cc: BestPartitionSnapshooter"]}
{"id": "C68", "title": "Distributed deep multilevel partitioning returns exactly k blocks", "statement": "Distributed deep multilevel partitioning ends, and its result has exactly k blocks, for every number of blocks k, whatever the sizes of the graphs of its hierarchy are.", "quantifier": "all numbers of blocks, extension factors, contraction limits, graph sizes and hierarchies", "why_tests_cant": "a partition is extended to more blocks level by level; which numbers of blocks it goes through depends on the sizes of all graphs of the hierarchy, and a run that never ends cannot be told from a slow one", "anchors": ["kaminpar-dist/partitioning/deep_multilevel.cc: DeepMultilevelPartitioner::partition (extend_partition)", "kaminpar-common/math.h: ceil2", "kaminpar-dist/graphutils/subgraph_extractor.cc: copy_subgraph_partitions (number of blocks)"]}
{"id": "C69", "title": "Every process gets the same copy of the whole distributed graph", "statement": "Replicating a distributed graph as a shared-memory graph gives every process the same graph, and it is the graph that the processes passed together: the same nodes, neighbours in the same order, node weights and edge weights, whatever the numbers of processes and threads are.", "quantifier": "all distributed graphs, distributions (with empty processes), numbers of processes, schedules and blocks of the parallel loops", "why_tests_cant": "each process sends arrays with its own offsets and IDs, and every process computes the positions of all others; an error shows only for certain sizes of the parts", "anchors": ["kaminpar-dist/graphutils/replicator.cc: replicate_graph_everywhere, allgather_graph", "kaminpar-mpi/wrapper.h: build_distribution_recvcounts, build_distribution_displs"]}
{"id": "C70", "title": "The partition with the smallest cut reaches all processes", "statement": "When every process has computed a partition of its copy of the graph, all processes receive the same one of these partitions, for all their nodes and ghost nodes, and no process had one with a smaller cut. A partition of the whole graph on one process is distributed to all processes unchanged, and gathering a distributed partition gives every process the blocks of all nodes. (Graphs with fewer than 2^31 nodes and cuts below 2^31.)", "quantifier": "all undirected graphs with non-negative weights, distributions, partitions, numbers of processes and threads, and schedules", "why_tests_cant": "the processes choose with one reduction over values that each of them computed alone, with any number of threads, and then translate the winner to their own node IDs; if they chose different winners, the result would be a mixture that no test can tell from a bad partition", "anchors": ["kaminpar-dist/graphutils/replicator.cc: distribute_best_partition (shm), distribute_partition, allgather_graph", "kaminpar-shm/metrics.h: edge_cut"]}
{"id": "C71", "title": "A round of label propagation visits every node once", "statement": "In a round of label propagation over a range of nodes, no node is handled twice, by the same or by different threads, and no node outside the range or with a degree at or above the configured threshold is handled. If the round is not stopped early, every node of the range that is active and has neighbours and a degree below the threshold is handled.", "quantifier": "all graphs with fewer than about 2^32 nodes, degree buckets, ranges, thresholds, chunk sizes, numbers of threads, schedules and random choices", "why_tests_cant": "the chunks are made by threads that race for parts of the buckets, shuffled, claimed by racing threads and visited in a random order in two levels; a node that is missed or visited twice in one of these steps changes no result that a test could compare with", "anchors": ["kaminpar-shm/label_propagation.h: ChunkRandomLabelPropagation::perform_iteration, init_chunks, shuffle_chunks, perform, perform_first_phase, perform_second_phase", "kaminpar-dist/distributed_label_propagation.h: ChunkRandomdLabelPropagation", "kaminpar-common/random.h: RandomPermutations"]}
{"id": "C72", "title": "The default gain cache of the k-way FM refinement answers for the current partition", "statement": "After its initialisation and any number of moves that threads apply at the same time, the compact hashing gain cache reports for every node the connection to every block, the gain of moving it, the list of gains over all or over the adjacent blocks and whether it is a border node exactly as they are in the current partition. The entries of the nodes never overlap, lie inside of the memory and are aligned. The lock of a node is held by at most one thread and does not change the reported weighted degree.", "quantifier": "all symmetric graphs with positive edge weights and degrees up to 2^28, numbers of blocks, partitions, histories of moves and interleavings of their updates, schedules of the prefix sum, orders of the initialisation, and contents of the memory before", "why_tests_cant": "the width of an entry, the size of a table and the offset of a node depend on weighted degrees, degrees and the padding of a parallel prefix sum; a table that is too small, an entry that is too narrow or two nodes that share a byte show only for particular weights, degrees and moves", "anchors": ["kaminpar-shm/refinement/gains/compact_hashing_gain_cache.h: CompactHashingGainCache::initialize, free, gain, gains, conn, move, is_border_node, lock, unlock, with_hash_table, with_full_table", "kaminpar-common/datastructures/compact_hash_map.h: CompactHashMap", "kaminpar-common/parallel/aligned_prefix_sum.h: aligned_prefix_sum"]}
{"id": "C73", "title": "The contraction of a distributed clustering builds the quotient graph, and partitions are projected back", "statement": "Contracting a clustering of a distributed graph gives one coarse node for each cluster that has nodes, with the weight of its nodes, and one edge for each ordered pair of clusters with an edge between them, with the weight of all these edges, without loops and parallel edges. The coarse nodes are numbered without gaps, the process that owns the ID of a cluster owns its coarse node, each process has its part of the coarse graph with exactly the ghost nodes that are neighbours of its nodes, and knows their weights. A partition of the coarse graph that the owners know is projected to every node and ghost node, with the same cut and the same block weights.", "quantifier": "all undirected distributed graphs with any number of processes, all clusterings that the processes agree on, all orders of threads, of the entries of hash tables and of messages, and all results of sorting algorithms", "why_tests_cant": "the clusters, their members and the edges between them are spread over all processes; nodes, edges and mappings travel in three exchanges whose counts and offsets must agree on all processes for every graph and clustering", "anchors": ["kaminpar-dist/coarsening/contraction/global_cluster_contraction.cc: contract_clustering, find_nonlocal_nodes, find_nonlocal_edges, deduplicate_edge_list, migrate_nodes, migrate_edges, build_lcluster_to_lcnode_mapping, build_distribution, exchange_migrated_nodes_mapping, ClusterToCoarseMapper, localize_global_edge_list, build_node_buckets, update_ghost_node_weights, GlobalCoarseGraphImpl::project", "kaminpar-dist/datastructures/ghost_node_mapper.h: GhostNodeMapper"]}
{"id": "C74", "title": "Moving coarse nodes to other processes changes neither the clusters nor the coarse graph", "statement": "If the coarse nodes would be spread too unevenly over the processes, clusters get new IDs such that other processes own their coarse nodes. Two nodes are in the same cluster afterwards if and only if they were before, all processes agree on the new IDs of all nodes and ghost nodes, no process owns more coarse nodes than it has nodes, coarse nodes above the limit leave and arrive elsewhere, and whenever there is room for all coarse nodes within the limit, every process obeys it. The contraction then builds the quotient graph of the same clustering.", "quantifier": "all undirected distributed graphs, clusterings, limits, both ways to choose the coarse nodes that move, all orders of processes with equal numbers of coarse nodes, all schedules of threads and messages", "why_tests_cant": "each process computes the plan on its own from the same numbers with an unstable sorting algorithm, and names must be unique over all processes; this depends on all counts of all processes", "anchors": ["kaminpar-dist/coarsening/contraction/global_cluster_contraction.cc: contract_clustering, rebalance_cluster_placement, compute_assignment_shifts, remap_gcnode, compute_distribution_imbalance"]}
{"id": "C75", "title": "The distributed node colouring ends with a proper colouring on which all processes agree", "statement": "The greedy distributed node colouring always ends, after at most 2n+2 passes over the n nodes of the whole graph. Adjacent nodes then have different colours, also if they are on different processes. A node with d neighbours has one of the first d+1 colours. Each process knows the colours of all its nodes and of all its ghost nodes, and the colours depend neither on the number of threads nor on the order of messages.", "quantifier": "all undirected distributed graphs without loops, all distributions of the nodes to processes, all numbers of supersteps, all schedules of threads and messages", "why_tests_cant": "nodes on different processes choose colours at the same time from stale information and repair conflicts later; whether this ends, and ends without conflicts, depends on the whole history of exchanged colours", "anchors": ["kaminpar-dist/algorithms/greedy_node_coloring.h: compute_node_coloring_sequentially", "kaminpar-common/math.h: compute_local_range", "kaminpar-dist/graphutils/communication.h: sparse_alltoall_interface_to_pe"]}
{"id": "C76", "title": "The border nodes chosen by the processes form an independent set of the whole graph", "statement": "The sets of nodes that the processes return when they look for an independent set of border nodes contain, taken together, no two adjacent nodes, only nodes with a neighbour in another block, and no node twice. A border node whose score is smaller than the scores of all its neighbours is always contained. The sets do not depend on the schedule of the threads.", "quantifier": "all undirected distributed graphs, partitions, seeds (all score functions) and orders in which threads visit nodes", "why_tests_cant": "the processes choose without communication, so two adjacent nodes on different processes could both be chosen; this depends on the scores of ghost nodes on all processes", "anchors": ["kaminpar-dist/algorithms/independent_set.cc: find_independent_border_set", "kaminpar-dist/datastructures/distributed_partitioned_graph.h: check_border_node"]}
{"id": "C77", "title": "The coloured label propagation never makes the cut worse and keeps the partition consistent on all processes", "statement": "After the coloured label propagation refinement of a distributed graph, all processes know the same partition and its block weights, every node is in one of the k blocks, the cut is not larger than before, and the difference is the sum of the gains that the processes report. With probabilistic moves, and with best moves on two or more processes, no block becomes heavier than the larger of its limit and its weight before. This holds for best moves with tracked block weights on a power of two of processes, for probabilistic moves, and for at most one round of local moves; each process has a node, and the graph has no loops and no negative weights.", "quantifier": "all undirected distributed graphs, numbers of processes and threads, partitions, limits, numbers of iterations and rounds, excluded colours, random numbers, schedules of threads and orders of messages", "why_tests_cant": "the processes move nodes at the same time and learn of the moves of others only afterwards; whether the gains add up depends on all moves of all processes in all rounds", "anchors": ["kaminpar-dist/refinement/lp/clp_refiner.cc: ColoredLPRefiner::initialize, refine, find_moves, perform_moves, perform_probabilistic_moves, try_probabilistic_moves, perform_best_moves, reduce_move_candidates, perform_local_moves, synchronize_state"]}
{"id": "C78", "title": "A distributed graph may be renumbered internally without the caller noticing", "statement": "When the distributed partitioner sorts the nodes of each process by degree or by colour before it partitions the graph, all processes hold the same graph afterwards, with new numbers: each node keeps its neighbours, edge weights and weight, and numbers, owners and weights of foreign nodes are correct on every process. The partition that is returned to the caller is given in the order of the input, and its cut and its block weights on the input are those of the partition that was computed on the renumbered graph. The order by degree puts nodes without neighbours first and sorts the others by the logarithm of their degree, keeping the order among equals; the order by colour sorts by colour, if each process has a node.", "quantifier": "all undirected distributed graphs with or without weights, permutations of the nodes of each process, partitions, numbers of processes and threads, schedules of threads and orders of messages", "why_tests_cant": "each process changes its numbers independently and tells the others only about nodes at its border; one wrong entry in a table of foreign nodes or the inverse permutation in the copy at the end gives a valid but wrong partition that small or symmetric examples do not reveal", "anchors": ["kaminpar-dist/graphutils/rearrangement.cc: rearrange, rearrange_by_permutation, rearrange_by_degree_buckets, rearrange_by_coloring", "kaminpar-shm/graphutils/permutator.h: build_permuted_graph, compute_node_permutation_by_degree_buckets", "kaminpar-dist/dkaminpar.cc: dKaMinPar::compute_partition", "kaminpar-dist/datastructures/distributed_csr_graph.h: set_permutation, permuted, map_original_node"]}
{"id": "C79", "title": "Distributed label propagation refinement keeps a consistent partition", "statement": "After the distributed label propagation refiner, all processes know the same partition, every node has one of the k blocks, and all processes know the correct block weights. If the refiner uses probabilistic moves, no block is heavier than its limit unless it was before, and then it did not become heavier. If one process with one thread refines and probabilities are ignored, the cut does not become larger either. With the default settings the limits may be violated by several processes or by several threads, and the cut may become larger.", "quantifier": "all undirected distributed graphs, partitions, block weight limits, settings, orders in which nodes are visited, coin flips, values read by concurrent threads, schedules of threads and orders of messages", "why_tests_cant": "processes move nodes at the same time without knowing the moves of others, and threads read block weights while others change them; which moves meet depends on the schedule", "anchors": ["kaminpar-dist/refinement/lp/lp_refiner.cc: LPRefinerImpl::refine, process_chunk, perform_moves, synchronize_state, accept_cluster, move_cluster_weight", "kaminpar-dist/distributed_label_propagation.h: LabelPropagation::handle_node, find_best_cluster", "kaminpar-dist/presets.cc: create_default_context"]}
{"id": "C80", "title": "Distributed label propagation clustering gives all processes the same clustering", "statement": "The distributed label propagation clustering ends, never reads the weight of a cluster that the process does not know, and afterwards all processes know the same clustering: for each node, its owner and every process with a copy of it have the same cluster, and each cluster is named by a node of the graph. The result can be contracted. On one process with one thread, no cluster is heavier than the weight limit unless a single node is. On several processes or with several threads the limit may be violated, also if cluster weights are exchanged and enforced.", "quantifier": "all undirected distributed graphs, limits, numbers of iterations and chunks, orders in which nodes are visited, skipped neighbours, random ties, values read by concurrent threads, ways to divide excess weight, schedules of threads and orders of messages", "why_tests_cant": "the clusters of a chunk are changed by all processes at the same time, moves are taken back on some processes and isolated nodes are merged; a missing entry in the hash table of weights or a stale ghost cluster needs a particular combination of moves", "anchors": ["kaminpar-dist/coarsening/clustering/lp/global_lp_clusterer.cc: GlobalLPClusteringImpl::compute_clustering, process_chunk, control_cluster_weights, synchronize_ghost_node_clusters, cluster_isolated_nodes, move_cluster_weight, set_max_cluster_weight", "kaminpar-dist/distributed_label_propagation.h: LabelPropagation::handle_node, find_best_cluster"]}
{"id": "C81", "title": "Distributed k-way multilevel partitioning ends with a common partition that keeps the balance of the coarsest level", "statement": "The distributed k-way multilevel scheme ends on every undirected graph without loops whose nodes, edges and total edge weight are below 2^31: after at most as many levels as the graph has nodes, all processes return the same partition into k blocks, every process with a copy of a node has its block, and the block weights of all processes are those of the input graph. The partition comes from a partition of the coarsest graph with the smallest cut of all processes, whose cut and block weights are the ones it has in the input. With label propagation as clustering and refinement algorithm, the result satisfies the block weight limits if this partition does and the chance of moves is not ignored. With refiners that never increase the cut, the final cut is not larger than the initial one.", "quantifier": "all undirected distributed graphs within these sizes, numbers of processes, blocks and levels, thresholds, clusterers that give all processes the same clustering, refiners that keep a common partition, initial partitions, schedules of threads and orders of messages", "why_tests_cant": "the result depends on a chain of levels, each built by concurrent processes from the one before; a ghost node with a wrong block or a block weight that is off by one node on some level appears only for particular graphs, distributions and schedules", "anchors": ["kaminpar-dist/partitioning/kway_multilevel.cc: KWayMultilevelPartitioner::partition", "kaminpar-dist/coarsening/global_cluster_coarsener.cc: GlobalClusterCoarsener::coarsen, uncoarsen, has_converged", "kaminpar-dist/refinement/multi_refiner.cc: MultiRefiner::refine", "kaminpar-dist/factories.cc: create_refiner, create_global_clusterer, create_partitioner"]}
{"id": "C82", "title": "Distributed heavy edge matching returns a matching that all processes know", "statement": "On every undirected distributed graph without loops in which each process has a node, the heavy edge matching clusterer ends with a clustering that is the same on all processes, also for their copies of foreign nodes, and that can be contracted. It is a matching: no cluster has more than two nodes, two nodes of one cluster are joined by an edge of positive weight, and the sum of their weights is at most the maximum cluster weight, unless this limit is ignored.", "quantifier": "all undirected distributed graphs without loops with fewer than 2^31 nodes (with ghost nodes) and edges, node weights that all processes know, numbers of processes and threads, colourings that the colouring algorithm returns, weight limits, schedules of threads, outdated reads, failing compare-and-swaps and orders of messages", "why_tests_cant": "two nodes on different processes may choose the same partner at the same time, in competition with a thread of its own process; a partner that is promised twice, or a rejected node that stays matched, needs particular schedules and weights", "anchors": ["kaminpar-dist/coarsening/clustering/hem/hem_clusterer.cc: HEMClustererImpl::cluster, compute_local_matching, resolve_global_conflicts, initialize_coloring, validate_matching"]}
{"id": "C83", "title": "Heavy edge matching with fallback: all processes take the same branch, and a matching that is kept shrinks the graph", "statement": "On every undirected distributed graph without loops in which each process has a node, heavy edge matching with label propagation as fallback ends with a clustering that is the same on all processes and can be contracted. The number that decides about the fallback is exactly the number of nodes of the contracted graph. The matching is used if there was no fallback before and this number is at most 90 percent of the nodes; otherwise all processes use label propagation, now and at all later levels. A level whose matching was kept is never discarded by the coarsener.", "quantifier": "all graphs that can be partitioned (C81) whose processes have nodes and know all node weights, numbers of processes and threads, weight limits, states of the fallback flag, schedules of threads and orders of messages", "why_tests_cant": "processes that disagree about the branch wait for each other for ever; that all compute the same number needs clusters that are named by one of their nodes, for every schedule of the matching", "anchors": ["kaminpar-dist/coarsening/clustering/hem/hem_lp_clusterer.cc: HEMLPClusterer::cluster, compute_size_after_matching_contraction", "kaminpar-dist/coarsening/global_cluster_coarsener.cc: GlobalClusterCoarsener::coarsen, has_converged"]}
{"id": "C84", "title": "V-cycles: the limits of each v-cycle are sums of the limits of the next one, and the last partition obeys the limits of the input", "statement": "If a graph is partitioned with v-cycles, the limit of each block of a v-cycle is the sum of the limits of the blocks of the next v-cycle into which it is split, each block of the next v-cycle belongs to exactly one block, all v-cycles have the same total limit, and the last one has the limits of the input. Hence the result is a partition into the requested number of blocks for which the deep multilevel partitioner gives the guarantees that it gives for these limits.", "quantifier": "all lists of v-cycles, numbers of blocks below 2^31, limits of the blocks, widths of weights and deep multilevel partitioners", "why_tests_cant": "the numbers of sub-blocks follow from the recursive bisection of the number of blocks; that they add up to the number of blocks of the next v-cycle depends on how both numbers are related, and a sum that is one too large reads beyond the end of an array without an error message", "anchors": ["kaminpar-shm/partitioning/deep/vcycle_deep_multilevel.cc: compute_max_block_weights, VcycleDeepMultilevelPartitioner::partition", "kaminpar-shm/partitioning/partition_utils.cc: compute_final_k"]}
{"id": "C85", "title": "The distributed node balancer proposes enough nodes, and the best ones", "statement": "The queue that a process keeps for an overloaded block holds enough nodes to remove the overload, or all nodes of the block it may move, and no node that was left out has a larger gain than one in the queue. In a parallel round all processes know the same number of buckets for each block. Together they propose enough weight to remove the overload, or all nodes in their queues; a node is proposed only if the nodes in better buckets of all processes are not enough. Nothing is proposed for blocks that are not overloaded.", "quantifier": "all numbers of processes, threads and blocks, block weights, limits, nodes with their weights and gains, and orders in which threads visit nodes and heaps list their elements", "why_tests_cant": "the number of buckets depends on the nodes of all processes, and it is computed by one process from an array that leaves out the blocks that are not overloaded; an index that is off by one moves too many or too few nodes only for some combinations of overloaded blocks", "anchors": ["kaminpar-dist/refinement/balancer/node_balancer.cc: NodeBalancer::reinit, try_pq_insertion, perform_parallel_round", "kaminpar-dist/refinement/balancer/weight_buckets.h: Buckets::compute_bucket, compactify, compute_cutoff_buckets", "kaminpar-dist/refinement/balancer/reductions.h: reduce_buckets_mpireduce"]}
{"id": "C86", "title": "The cluster balancer knows the connections of its clusters", "statement": "The distributed cluster balancer keeps, for every cluster of nodes it may move and every block, the weight of the edges between the cluster and the block. Whatever clusters and ghost nodes are moved, these weights are the actual ones afterwards. The gain computed from them is the weight by which the cut shrinks when the cluster moves. The target is a block in which the cluster fits and, among these, one with the largest connection. If every node is its own cluster, exactly the nodes of overloaded blocks are in a cluster and the initial weights are the actual ones.", "quantifier": "all graphs with positive weights in which both directions of an edge have the same weight, numbers of ghost nodes and blocks, partitions, sets of clusters, and sequences of moves of clusters and ghost nodes", "why_tests_cant": "the weights are updated edge by edge from the other side of the edge, and through an adjacency array of the ghost nodes; an entry that is wrong by one edge only leads to a move that is not the best one", "anchors": ["kaminpar-dist/refinement/balancer/clusters.h: Clusters::move_ghost_node, move_cluster, find_max_conn, find_max_gain", "kaminpar-dist/refinement/balancer/clusters.cc: Clusters::init_ghost_node_adjacency, build_singleton_clusters", "kaminpar-dist/refinement/balancer/cluster_balancer.cc: ClusterBalancer::perform_moves"]}
{"id": "C87", "title": "Every node of an overloaded block is in one cluster of the cluster balancer", "statement": "The greedy builder of the distributed cluster balancer puts every node of an overloaded block into exactly one cluster. All nodes of a cluster are in the same overloaded block, no cluster is empty, and without its last node a cluster is lighter than the limit. The connections it computes are the actual ones, and stay so when clusters move.", "quantifier": "all graphs with positive weights in which both directions of an edge have the same weight, partitions, node weights, block weights, limits, orders in which the heap returns nodes, and decisions of the stopping policy", "why_tests_cant": "nodes are given back only if the best prefix of a cluster is not the whole cluster, and a node that is lost is seen neither in the result nor in the cut; the assertions that would see it are heavy ones that are off by default, and one of them uses the same wrong marks", "anchors": ["kaminpar-dist/refinement/balancer/clusters.cc: BatchedClusterBuilder::build, grow_cluster, add_to_cluster, finish_cluster"]}
{"id": "C88", "title": "The cluster balancer limits clusters by the overload and proposes every cluster for a block with room", "statement": "The limit for the weight of the clusters of the distributed cluster balancer is the largest, the average or the smallest overload of an overloaded block, as configured, and it is positive as long as a block is overloaded. Every cluster that is picked in a parallel round is proposed for a block with room for it, and the weights announced per block are those of the proposals.", "quantifier": "all numbers of blocks, block weights, limits of block weights, clusters, connections, decisions about which clusters are picked, and weights that were assigned before", "why_tests_cant": "a limit of zero and a cluster that fits nowhere need a configuration that is not the default or a partition in which all other blocks are nearly full; a write outside of the array need not have a visible effect", "anchors": ["kaminpar-dist/refinement/balancer/cluster_balancer.cc: compute_cluster_weight_limit, assign_feasible_target_block, perform_parallel_round", "kaminpar-dist/metrics.cc: num_imbalanced_blocks"]}
{"id": "C89", "title": "The label propagation clusters of the cluster balancer are groups of nodes of one overloaded block", "statement": "If the distributed cluster balancer uses label propagation, then the nodes of overloaded blocks with the same label form a cluster; every such node is in exactly one cluster and no other node is in one. All nodes of a cluster are in the same block, and the connections computed for it are the actual ones.", "quantifier": "all graphs, partitions, sets of overloaded blocks, labels, and earlier contents of the reused arrays", "why_tests_cant": "the label propagation depends on random numbers and schedules, and whether a label is used in several blocks depends on its result; wrong connections are only seen as worse moves", "anchors": ["kaminpar-dist/refinement/balancer/clusters.cc: build_local_clusters", "kaminpar-dist/refinement/balancer/clusters.h: Clusters::nodes, Clusters::cluster_of"]}
{"id": "C90", "title": "After a round of the cluster balancer all processes agree on the partition and its block weights", "statement": "After every parallel round of the distributed cluster balancer, and after the moves of every sequential round, every process has the right block for each of its nodes and ghost nodes and the right weight for each block. The nodes of an accepted cluster have all moved to the target of the cluster, and no other node has moved. If moves are only accepted when balanced, a parallel round overloads no block that was within its limit.", "quantifier": "all numbers of processes, distributions, graphs, partitions, clusters, proposed moves, random numbers, and numbers of attempts", "why_tests_cant": "the accepted clusters depend on random numbers on all processes; a ghost node that is not updated is only noticed much later, as a wrong gain or weight on another process", "anchors": ["kaminpar-dist/refinement/balancer/cluster_balancer.cc: ClusterBalancer::perform_parallel_round, ClusterBalancer::perform_moves, ClusterBalancer::perform_sequential_round"]}
{"id": "C91", "title": "A sequential round of the cluster balancer overloads no block and makes progress", "statement": "A sequential round of the distributed cluster balancer has exactly one result for given candidates, whatever the order of the messages. All processes agree on the new partition and its block weights. The nodes of a candidate cluster all stay or all move to one block, and no other node moves. No block becomes heavier than both its old weight and its limit. If there is a candidate and every candidate fits into its target, the total overload shrinks.", "quantifier": "all numbers of processes, schedules of the reduction, distributions, graphs, partitions, clusters, candidates, orders of candidates with equal gains, and limits on their number", "why_tests_cant": "the winners depend on the candidates of all processes and on the tree of the reduction; the candidates without a target are only assigned on the root, after the weights of all others are known", "anchors": ["kaminpar-dist/refinement/balancer/cluster_balancer.cc: ClusterBalancer::perform_sequential_round, ClusterBalancer::assign_feasible_target_block, ClusterBalancer::perform_moves", "kaminpar-dist/refinement/balancer/reductions.h: reduce_candidates"]}
{"id": "C92", "title": "The cluster balancer proposes the best clusters of every overloaded block for a sequential round", "statement": "On each process, the call that picks the candidates for a sequential round of the distributed cluster balancer ends. It picks as many different clusters of each overloaded block as allowed, with their actual gains, in the order of the blocks. The priority queues have the same clusters as before and the weights in the buckets are exact. If no key in the queue is smaller than the actual gain, no other cluster of the block has a larger gain than a picked one.", "quantifier": "all numbers of blocks, queues, keys, gains, weights, limits, buckets, and choices among equal keys", "why_tests_cant": "how often outdated keys are put back depends on the whole history of moves; a weight that is missing in a bucket is only noticed in a later parallel round", "anchors": ["kaminpar-dist/refinement/balancer/cluster_balancer.cc: ClusterBalancer::pick_sequential_candidates"]}
{"id": "C93", "title": "A parallel round of the cluster balancer considers just enough of the best clusters to remove the current fraction of the overload", "statement": "In a parallel round of the distributed cluster balancer, the clusters in the best buckets of an overloaded block are candidates, all others are not. If the rebalance fraction is positive, these clusters of all processes have at least this fraction of the overload as their weight, or all buckets are taken; fewer buckets would not be enough. There is no access outside of an array. The fraction reaches 1 if it grows.", "quantifier": "all numbers of blocks and buckets, block weights, limits, weights in the buckets, and fractions between 0 and 1", "why_tests_cant": "the array of the buckets is indexed by overloaded blocks but the loop counts the blocks above a smaller limit; whether both agree depends on the rounding for every weight and fraction", "anchors": ["kaminpar-dist/refinement/balancer/cluster_balancer.cc: ClusterBalancer::perform_parallel_round"]}
